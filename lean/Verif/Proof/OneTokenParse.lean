/-
The parser follows a run of the node machines when one token is enough to choose a rule.
-/
import Verif.Proof.OneTokenRun

namespace Verif.Proof

open Verif.Model Verif.Spec Verif.Props
open Verif.Model.Tree (bindRun)

variable {σ : Type} {env : PEnv σ}

/-- The parse ends without an error and as wanted when a new token is needed. -/
def RunsOuter (env : PEnv σ) (post : PC σ → Prop) (pc : PC σ) (tok : Option Token) (c : Bool) : Prop :=
  ∃ N, ∀ f f', N ≤ f → N ≤ f' → ∃ pc', bindRes (outer env f pc tok c) (fun r => finish env f' r.1 r.2.1 r.2.2) = .done (.ok pc') ∧ post pc'

/-- The parse ends without an error and as wanted when a token is being handled. -/
def RunsInner (env : PEnv σ) (post : PC σ → Prop) (pc : PC σ) (tok : Option Token) : Prop :=
  ∃ N, ∀ f f1 f', N ≤ f → N ≤ f1 → N ≤ f' → ∃ pc', bindRes (inner env f pc tok)
    (fun r => bindRes (outer env f1 r.1 tok r.2) fun r => finish env f' r.1 r.2.1 r.2.2) = .done (.ok pc') ∧ post pc'

variable {post : PC σ → Prop}

theorem runs_fetch {pc pc1 : PC σ} {tok t : Option Token} {c : Bool} {node : NodeRec} {rest : List NodeRec} (hs : pc.stack = node :: rest)
    {N : Nat} (h : ∀ f, N ≤ f → nextToken env f pc node.types = .done (pc1, .ok t)) (hr : RunsInner env post pc1 t) :
    RunsOuter env post pc tok c := by
  obtain ⟨N1, hr⟩ := hr
  refine ⟨max N N1 + 1, fun f f' hf hf' => ?_⟩
  obtain ⟨f, rfl⟩ : ∃ x, f = x + 1 := ⟨f - 1, by omega⟩
  obtain ⟨pc', h1, hpost⟩ := hr f f f' (by omega) (by omega) (by omega)
  refine ⟨pc', ?_, hpost⟩
  rw [outer, hs]
  dsimp only
  rw [h f (by omega)]
  simp only [bindRun]
  rw [← h1]
  rcases inner env f pc1 t with _ | _ | (_ | _) <;> rfl

theorem runs_consume {pc pc2 : PC σ} {tok : Option Token} {node : NodeRec} {rest : List NodeRec} {r : Rule} (hs : pc.stack = node :: rest)
    (ha : pc.applied = []) (h : findRules env.g env.upper tok node.state = some [r])
    (h2 : applyRule env pc tok r = .done (.ok (pc2, true))) (hr : RunsOuter env post pc2 tok true) : RunsInner env post pc tok := by
  obtain ⟨N, hr⟩ := hr
  refine ⟨N + 1, fun f f1 f' hf hf1 hf' => ?_⟩
  obtain ⟨f, rfl⟩ : ∃ x, f = x + 1 := ⟨f - 1, by omega⟩
  obtain ⟨pc', h1, hpost⟩ := hr f1 f' (by omega) (by omega)
  refine ⟨pc', ?_, hpost⟩
  rw [inner, hs]
  dsimp only
  rw [nextRule, ha]
  dsimp only
  rw [h]
  simp only [orPanic, bindRun, h2, bindRes, if_true]
  exact h1

theorem runs_go {pc pc2 : PC σ} {tok : Option Token} {node : NodeRec} {rest : List NodeRec} {r : Rule} (hs : pc.stack = node :: rest)
    (ha : pc.applied = []) (h : findRules env.g env.upper tok node.state = some [r])
    (h2 : applyRule env pc tok r = .done (.ok (pc2, false))) (hr : RunsInner env post pc2 tok) : RunsInner env post pc tok := by
  obtain ⟨N, hr⟩ := hr
  refine ⟨N + 1, fun f f1 f' hf hf1 hf' => ?_⟩
  obtain ⟨f, rfl⟩ : ∃ x, f = x + 1 := ⟨f - 1, by omega⟩
  obtain ⟨pc', h1, hpost⟩ := hr f f1 f' (by omega) (by omega) (by omega)
  refine ⟨pc', ?_, hpost⟩
  rw [inner, hs]
  dsimp only
  rw [nextRule, ha]
  dsimp only
  rw [h]
  simp only [orPanic, bindRun, h2]
  rw [← h1]
  rfl

theorem runs_empty {pc : PC σ} {tok : Option Token} {c : Bool} (hs : pc.stack = [])
    (h : ∃ N, ∀ f, N ≤ f → ∃ pc', finish env f pc tok c = .done (.ok pc') ∧ post pc') : RunsOuter env post pc tok c := by
  obtain ⟨N, h⟩ := h
  refine ⟨N + 1, fun f f' hf hf' => ?_⟩
  obtain ⟨f, rfl⟩ : ∃ x, f = x + 1 := ⟨f - 1, by omega⟩
  obtain ⟨pc', h1, hpost⟩ := h f' (by omega)
  refine ⟨pc', ?_, hpost⟩
  rw [outer, hs]
  exact h1

theorem runs_left {pc : PC σ} {tok : Option Token} (hs : pc.stack = [])
    (h : ∃ N, ∀ f, N ≤ f → ∃ pc', finish env f pc tok false = .done (.ok pc') ∧ post pc') : RunsInner env post pc tok := by
  obtain ⟨N, h⟩ := runs_empty hs h
  refine ⟨N + 1, fun f f1 f' hf hf1 hf' => ?_⟩
  obtain ⟨f, rfl⟩ : ∃ x, f = x + 1 := ⟨f - 1, by omega⟩
  obtain ⟨pc', h1, hpost⟩ := h f1 f' (by omega) (by omega)
  refine ⟨pc', ?_, hpost⟩
  rw [inner, hs]
  exact h1

theorem nextToken_direct {pc : PC σ} {f : Nat} {types : TokenTypeSet} (h : pc.tokens = []) :
    nextToken env f pc types = nextLoop env types f pc := by
  rw [nextToken]
  split
  · rename_i h1; rw [h] at h1; cases h1
  · rfl

section Stream

variable {asks : TokenTypeSet → Prop} {F : TokenTypeSet → List Token → Prop} {Q : σ → List Token → Prop} {R : Token → Nat → Prop}

/-- What `nextToken` gives when pulled tokens are known. -/
theorem fetch_cases_on (hsup : SuppliesOn env.pull asks F Q) (hR : ∀ t k, R t k → 0 ≤ t.type ∧ env.g.isSideType t.type = false)
    (hP : ∀ t, Passed env.g t → t.type = eofTokenType ∨ env.g.isSideType t.type = true)
    (types : TokenTypeSet) {ts : List Token} {ks : List (Token × Nat)} (h : KeyedBy R (Passed env.g) ts ks)
    (hF : ∀ ts, KeyedBy R (Passed env.g) ts ks → F types ts) :
    ∀ (pc : PC σ), Q pc.src ts → ∃ (N : Nat) (src : σ) (o : Option Token) (ts' : List Token),
      (∀ f, N ≤ f → nextLoop env types f pc = .done ({ pc with src := src, delivered := pc.delivered ++ [o] }, .ok o)) ∧ Q src ts' ∧
      ((∃ t, o = some t ∧ env.g.isSideType t.type = true ∧ KeyedBy R (Passed env.g) ts' ks ∧ ts'.length < ts.length) ∨
       (∃ t k ks', o = some t ∧ ks = (t, k) :: ks' ∧ R t k ∧ KeyedBy R (Passed env.g) ts' ks') ∨
       (o = none ∧ KeyedBy R (Passed env.g) ts' ks ∧ (match ts' with
        | [] => ¬ asks types
        | t :: _ => ¬ Wanted asks types t)) ∨
       (∃ t, o = some t ∧ t.type = eoiTokenType ∧ ks = [] ∧ ts' = [])) := by
  have hnone : ∀ (pc : PC σ) (src : σ), env.pull pc.src types = .done (src, .ok none) → ∀ f, 1 ≤ f →
      nextLoop env types f pc = .done ({ pc with src := src, delivered := pc.delivered ++ [none] }, .ok none) := by
    intro pc src hp f hf
    obtain ⟨f, rfl⟩ : ∃ x, f = x + 1 := ⟨f - 1, by omega⟩
    rw [nextLoop, hp]
    simp [bindRun, Grammar.isSideToken]
  induction h with
  | nil =>
    intro pc hq
    by_cases h0 : ¬ asks types
    · obtain ⟨q', h1, h2⟩ := hsup.nothing pc.src types hq (hF _ .nil) h0
      exact ⟨1, q', none, [], hnone pc q' h1, h2, .inr (.inr (.inl ⟨rfl, .nil, h0⟩))⟩
    · obtain ⟨q', t, h1, h2, h3⟩ := hsup.ending pc.src types hq (hF _ .nil) (not_not.mp h0)
      refine ⟨1, q', some t, [], ?_, h3, .inr (.inr (.inr ⟨t, rfl, h2, rfl, rfl⟩))⟩
      intro f hf
      obtain ⟨f, rfl⟩ : ∃ x, f = x + 1 := ⟨f - 1, by omega⟩
      rw [nextLoop, h1]
      simp only [bindRun]
      rw [if_neg]
      simp [Grammar.isSideToken, Grammar.isSideType, h2, eoiTokenType, eofTokenType]
  | @side t ts ks hp hk ih =>
    intro pc hq
    by_cases hw : Wanted asks types t
    · obtain ⟨q', h1, h2⟩ := hsup.given pc.src t ts types hq (hF _ (.side hp hk)) hw
      by_cases hskip : t.type = eofTokenType ∨ (env.g.isSideType t.type = true ∧ ¬ env.passSides)
      · obtain ⟨N, src, o, ts', h3, h4, h5⟩ := ih hF { pc with src := q' } h2
        refine ⟨N + 1, src, o, ts', ?_, h4, ?_⟩
        · intro f hf
          obtain ⟨f, rfl⟩ : ∃ x, f = x + 1 := ⟨f - 1, by omega⟩
          rw [nextLoop, h1]
          simp only [bindRun]
          rw [if_pos (by simpa [Grammar.isSideToken] using hskip)]
          exact h3 f (by omega)
        · rcases h5 with ⟨t', e1, e2, e3, e4⟩ | h5
          · exact .inl ⟨t', e1, e2, e3, by simp; omega⟩
          · exact .inr h5
      · refine ⟨1, q', some t, ts, ?_, h2, .inl ⟨t, rfl, ?_, hk, by simp⟩⟩
        · intro f hf
          obtain ⟨f, rfl⟩ : ∃ x, f = x + 1 := ⟨f - 1, by omega⟩
          rw [nextLoop, h1]
          simp only [bindRun]
          rw [if_neg (by simpa [Grammar.isSideToken] using hskip)]
        · rcases hP t hp with h | h
          · exact absurd (.inl h) hskip
          · exact h
    · obtain ⟨q', h1, h2⟩ := hsup.refused pc.src t ts types hq (hF _ (.side hp hk)) hw
      exact ⟨1, q', none, t :: ts, hnone pc q' h1, h2, .inr (.inr (.inl ⟨rfl, .side hp hk, hw⟩))⟩
  | @tok t k ts ks hp hk ih =>
    intro pc hq
    by_cases hw : Wanted asks types t
    · obtain ⟨q', h1, h2⟩ := hsup.given pc.src t ts types hq (hF _ (.tok hp hk)) hw
      refine ⟨1, q', some t, ts, ?_, h2, .inr (.inl ⟨t, k, ks, rfl, rfl, hp, hk⟩)⟩
      intro f hf
      obtain ⟨f, rfl⟩ : ∃ x, f = x + 1 := ⟨f - 1, by omega⟩
      rw [nextLoop, h1]
      simp only [bindRun]
      rw [if_neg]
      have := hR t k hp
      simp only [Grammar.isSideToken, Option.any_some, this.2, Bool.false_eq_true, false_and, or_false, decide_eq_true_eq]
      unfold eofTokenType; omega
    · obtain ⟨q', h1, h2⟩ := hsup.refused pc.src t ts types hq (hF _ (.tok hp hk)) hw
      exact ⟨1, q', none, t :: ts, hnone pc q' h1, h2, .inr (.inr (.inl ⟨rfl, .tok hp hk, hw⟩))⟩

theorem fetch_cases (hsup : Supplies env.pull asks Q) (hR : ∀ t k, R t k → 0 ≤ t.type ∧ env.g.isSideType t.type = false)
    (hP : ∀ t, Passed env.g t → t.type = eofTokenType ∨ env.g.isSideType t.type = true)
    (types : TokenTypeSet) {ts : List Token} {ks : List (Token × Nat)} (h : KeyedBy R (Passed env.g) ts ks) :
    ∀ (pc : PC σ), Q pc.src ts → ∃ (N : Nat) (src : σ) (o : Option Token) (ts' : List Token),
      (∀ f, N ≤ f → nextLoop env types f pc = .done ({ pc with src := src, delivered := pc.delivered ++ [o] }, .ok o)) ∧ Q src ts' ∧
      ((∃ t, o = some t ∧ env.g.isSideType t.type = true ∧ KeyedBy R (Passed env.g) ts' ks ∧ ts'.length < ts.length) ∨
       (∃ t k ks', o = some t ∧ ks = (t, k) :: ks' ∧ R t k ∧ KeyedBy R (Passed env.g) ts' ks') ∨
       (o = none ∧ KeyedBy R (Passed env.g) ts' ks ∧ (match ts' with
        | [] => ¬ asks types
        | t :: _ => ¬ Wanted asks types t)) ∨
       (∃ t, o = some t ∧ t.type = eoiTokenType ∧ ks = [] ∧ ts' = [])) :=
  fetch_cases_on hsup.on hR hP types h fun _ _ => trivial

theorem passed_wanted {g : Grammar} (hany : asks allTokenTypes) {t : Token} (h : Passed g t) : Wanted asks allTokenTypes t := by
  unfold Wanted
  rcases h with h | ⟨h1, h2, -⟩
  · rw [if_pos (by rw [h]; decide)]; exact hany
  · have h0 : 0 ≤ t.type := by
      by_contra hc
      rw [Grammar.isSideType, if_neg hc] at h1; cases h1
    rw [if_neg (by omega)]
    rw [allTokenTypes, BitVec.getLsbD_allOnes, decide_eq_true_eq]; omega

/-- The rest of the input is nothing but side tokens. -/
theorem restLoop_passes_on (hsup : SuppliesOn env.pull asks F Q) (hany : asks allTokenTypes)
    (hF : ∀ ts, KeyedBy R (Passed env.g) ts [] → F allTokenTypes ts) (hR : ∀ t k, R t k → 0 ≤ t.type ∧ env.g.isSideType t.type = false)
    (hP : ∀ t, Passed env.g t → t.type = eofTokenType ∨ env.g.isSideType t.type = true) (n : Nat) :
    ∀ (pc : PC σ) (ts : List Token), ts.length = n → pc.tokens = [] → Q pc.src ts → KeyedBy R (Passed env.g) ts [] →
      ∃ N, ∀ f, N ≤ f → ∃ pc', restLoop env f pc = .done (.ok pc') ∧ pc'.log = pc.log ∧ pc'.lastResult = pc.lastResult ∧ Q pc'.src [] := by
  induction n using Nat.strongRecOn with
  | _ n ih =>
    intro pc ts hn htok hq hk
    obtain ⟨N, src, o, ts', h1, h2, h3⟩ := fetch_cases_on hsup hR hP allTokenTypes hk hF pc hq
    have hnext : ∀ f, N ≤ f → nextToken env f pc allTokenTypes =
        .done ({ pc with src := src, delivered := pc.delivered ++ [o] }, .ok o) := by
      intro f hf
      rw [nextToken_direct htok]
      exact h1 f hf
    rcases h3 with ⟨t, rfl, hside, hk', hlt⟩ | ⟨t, k, ks', -, h, -⟩ | ⟨-, hk', hw⟩ | ⟨t, rfl, ht, -, rfl⟩
    · obtain ⟨N1, h4⟩ := ih ts'.length (by omega) { pc with src := src, delivered := pc.delivered ++ [some t] } ts' rfl htok h2 hk'
      refine ⟨max N N1 + 1, fun f hf => ?_⟩
      obtain ⟨f, rfl⟩ : ∃ x, f = x + 1 := ⟨f - 1, by omega⟩
      rw [restLoop, hnext f (by omega)]
      simp only [bindRun]
      rw [if_neg, if_pos hside]
      · exact h4 f (by omega)
      · intro h; rw [h] at hside; cases hside
    · cases h
    · cases hk' with
      | nil => exact absurd hany hw
      | side hp _ => exact absurd (passed_wanted hany hp) hw
    · refine ⟨N + 1, fun f hf => ?_⟩
      obtain ⟨f, rfl⟩ : ∃ x, f = x + 1 := ⟨f - 1, by omega⟩
      rw [restLoop, hnext f (by omega)]
      simp only [bindRun]
      rw [if_pos ht]
      exact ⟨_, rfl, rfl, rfl, h2⟩

theorem restLoop_passes (hsup : Supplies env.pull asks Q) (hR : ∀ t k, R t k → 0 ≤ t.type ∧ env.g.isSideType t.type = false)
    (hP : ∀ t, Passed env.g t → t.type = eofTokenType ∨ env.g.isSideType t.type = true) (n : Nat)
    (pc : PC σ) (ts : List Token) (hn : ts.length = n) (htok : pc.tokens = []) (hq : Q pc.src ts) (hk : KeyedBy R (Passed env.g) ts []) :
    ∃ N, ∀ f, N ≤ f → ∃ pc', restLoop env f pc = .done (.ok pc') ∧ pc'.log = pc.log ∧ pc'.lastResult = pc.lastResult := by
  obtain ⟨N, h⟩ := restLoop_passes_on hsup.on hsup.any (fun _ _ => trivial) hR hP n pc ts hn htok hq hk
  exact ⟨N, fun f hf => let ⟨pc', h1, h2, h3, _⟩ := h f hf; ⟨pc', h1, h2, h3⟩⟩

end Stream

section Frames

variable {g : Grammar} {m : Table}

/-- The types of a frame are those of its state. -/
def FrameOk (g : Grammar) (f : Frame) : Prop :=
  f.state = finalState ∨ ∃ (n : Nat) (gs : GState), f.state = n ∧ g.tables.states[n]? = some gs ∧ f.types = gs.types

theorem popFrames_mem (l : List Frame) : ∀ f ∈ popFrames l, f ∈ l := by
  induction l with
  | nil => simp [popFrames]
  | cons f l ih =>
    rw [popFrames]
    split
    · exact fun x hx => by simp [ih x hx]
    · exact fun x hx => hx

theorem moveFrame_ok (hcl : RulesClosed g m) {s : Nat} {k : Int} {r : Rule} (hr : r ∈ m s k) (f : Frame) :
    ∃ f', moveFrame g r f = some f' ∧ f'.state = r.state ∧ f'.index = f.index ∧ FrameOk g f' := by
  rw [moveFrame]
  rcases hcl.1 s k r hr with h | ⟨n, gs, h1, h2⟩
  · rw [if_neg (by rw [h]; decide), if_pos h]
    exact ⟨_, rfl, rfl, rfl, .inl h⟩
  · rw [if_neg (by rw [h1]; unfold repeatState; omega), if_neg (by rw [h1]; unfold finalState; omega), h1]
    have : Go.index g.tables.states (n : Int) = some gs := by simp [Go.index, h2]
    rw [this]
    exact ⟨_, rfl, rfl, rfl, .inr ⟨n, gs, rfl, h2, rfl⟩⟩

/-- A rule that opens no node. -/
theorem applyQuiet_same (hcl : RulesClosed g m) {s : Nat} {k : Int} {r : Rule} (hr : r ∈ m s k) (hn : r.node = sameNode)
    (tok : Option Token) {l : List Frame} (hl : l ≠ []) (hok : ∀ f ∈ l, FrameOk g f) :
    ∃ l', applyQuiet g tok r l = some (l', consumes r tok) ∧ ∀ f ∈ l', FrameOk g f := by
  cases l with
  | nil => exact absurd rfl hl
  | cons f l =>
    obtain ⟨f', h1, h2, h3, h4⟩ := moveFrame_ok hcl hr f
    rw [applyQuiet, h1, Option.bind_some, if_neg (by simpa using hn), Option.map_some]
    refine ⟨_, rfl, fun x hx => ?_⟩
    rcases List.mem_cons.mp (popFrames_mem _ x hx) with rfl | hx
    · exact h4
    · exact hok x (by simp [hx])

/-- A rule that opens a node. -/
theorem applyQuiet_push (hcl : RulesClosed g m) {s : Nat} {k : Int} {r : Rule} (hr : r ∈ m s k) {n first : Nat} (hn : r.node = (n : Int))
    (hf : g.firsts[n]? = some first) (tok : Option Token) {l : List Frame} (hl : l ≠ []) (hok : ∀ f ∈ l, FrameOk g f) :
    ∃ l', applyQuiet g tok r l = some (l', consumes r tok) ∧ ∀ f ∈ l', FrameOk g f := by
  cases l with
  | nil => exact absurd rfl hl
  | cons f l =>
    obtain ⟨f', h1, h2, h3, h4⟩ := moveFrame_ok hcl hr f
    obtain ⟨gs, hgs⟩ := hcl.2 n first hf
    rw [applyQuiet, h1, Option.bind_some, if_pos (by rw [hn]; unfold sameNode; omega), if_pos (by omega), hn]
    simp only [Int.toNat_natCast, hf, Option.bind_some, hgs, Option.map_some]
    refine ⟨_, rfl, fun x hx => ?_⟩
    rcases List.mem_cons.mp (popFrames_mem _ x hx) with rfl | hx
    · exact .inr ⟨first, gs, rfl, hgs, rfl⟩
    · rcases List.mem_cons.mp hx with rfl | hx
      · exact h4
      · exact hok x (by simp [hx])

/-- The context fits the open nodes of a run and the tokens to come. -/
structure Fits (env : PEnv σ) (st0 : Option Token) (Q : σ → List Token → Prop) (pc : PC σ) (fr : List Part) (ts : List Token) : Prop where
  tree : Shown env st0 pc.stack pc.log pc.lastResult (shut [] fr)
  frames : ∀ f ∈ pc.stack.map (·.toFrame), FrameOk env.g f
  live : ∀ n ∈ pc.stack, Alive env n.hooks
  tokens : pc.tokens = []
  applied : pc.applied = []
  src : Q pc.src ts

variable {Q : σ → List Token → Prop} {st0 : Option Token}

theorem shut_nat {s i : Nat} {st : Option Token} {its : List Item} {rest : List Part} :
    shut [] (⟨(s : Int), i, st, its⟩ :: rest) = .inl (⟨(s : Int), i, st, its⟩ :: rest) :=
  shut_open (by simp only [finalState]; omega)

theorem Fits.top {pc : PC σ} {s i : Nat} {st : Option Token} {its : List Item} {rest : List Part} {ts : List Token}
    (h : Fits env st0 Q pc (⟨(s : Int), i, st, its⟩ :: rest) ts) :
    ∃ node nodes gs, pc.stack = node :: nodes ∧ node.state = (s : Int) ∧ env.g.tables.states[s]? = some gs ∧ node.types = gs.types := by
  have h1 := h.tree
  rw [shut_nat] at h1
  obtain ⟨node, nodes, infos, hs, ho, hp, -, -⟩ := h1
  obtain ⟨a, b, c, rfl⟩ := ho.info
  rw [hs, partsOf] at hp
  simp only [List.cons.injEq, Part.mk.injEq] at hp
  rcases h.frames node.toFrame (by rw [hs]; simp) with h2 | ⟨n, gs, h2, h3, h4⟩
  · rw [hp.1.1] at h2; unfold finalState at h2; omega
  · have : n = s := by have := hp.1.1; omega
    subst this
    exact ⟨node, nodes, gs, hs, hp.1.1, h3, h4⟩

theorem Fits.apply (hh : HooksAnswer env) {pc : PC σ} {s i : Nat} {st : Option Token} {its : List Item} {rest : List Part} {ts : List Token}
    (h : Fits env st0 Q pc (⟨(s : Int), i, st, its⟩ :: rest) ts) {tok : Option Token} {r : Rule} {first : Nat}
    (hf : 0 ≤ r.node → env.g.firsts[r.node.toNat]? = some first)
    (hq : pc.stack.map (·.toFrame) ≠ [] → ∃ l', applyQuiet env.g tok r (pc.stack.map (·.toFrame)) = some (l', consumes r tok) ∧ ∀ f ∈ l', FrameOk env.g f) :
    ∃ pc', applyRule env pc tok r = .done (.ok (pc', consumes r tok)) ∧
      Fits env st0 Q pc' (grown env.g tok r first (⟨(s : Int), i, st, its⟩ :: rest)) ts := by
  obtain ⟨node, nodes, gs, hs, -⟩ := h.top
  obtain ⟨l', h1, h3⟩ := hq (by rw [hs]; simp)
  obtain ⟨pc', h4, h5, h8⟩ := applyRule_pass hh h.live h1
  have ht := h.tree
  rw [shut_nat] at ht
  have h7 := applyRule_shown hf ht h4
  obtain ⟨-, stack, log, last, h6⟩ := applyRule_spec h4
  refine ⟨pc', h4, ⟨h7, by rw [h5]; exact h3, h8, ?_, ?_, ?_⟩⟩
  · rw [h6]; exact h.tokens
  · rw [h6]; exact h.applied
  · rw [h6]; exact h.src

theorem Fits.fetched {pc : PC σ} {fr : List Part} {ts ts' : List Token} (h : Fits env st0 Q pc fr ts) {src : σ} (hq : Q src ts')
    {o : Option Token} : Fits env st0 Q { pc with src := src, delivered := pc.delivered ++ [o] } fr ts' :=
  ⟨h.tree, h.frames, h.live, h.tokens, h.applied, hq⟩

end Frames

section Follow

variable {asks : TokenTypeSet → Prop} {F : TokenTypeSet → List Token → Prop} {Q : σ → List Token → Prop} {m : Table} {node : Nat → Nat} {next after : Nat → Int → Prop} {also : Int → Int → Prop}

/-- Tokens with their keys. -/
abbrev Keys (env : PEnv σ) (m : Table) (also : Int → Int → Prop) : List Token → List (Token × Nat) → Prop :=
  KeyedBy (Readable env.g env.upper m also) (Passed env.g)

/-- What is needed to follow a run. -/
structure Followed (env : PEnv σ) (m : Table) (node : Nat → Nat) (next after : Nat → Int → Prop) (also : Int → Int → Prop)
    (ok : Nat → List (Token × Nat) → Prop) (asks : TokenTypeSet → Prop) (F : TokenTypeSet → List Token → Prop) (Q : σ → List Token → Prop) : Prop where
  means : Means env.g.tables m
  distinct : DistinctLiterals env.g
  hooks : HooksAnswer env
  closed : RulesClosed env.g m
  keys : ∀ (s : Nat) (k : Int), m s k ≠ [] → 0 ≤ k ∨ k = anyToken
  predicts : Predicts env.g m node next after
  single : ∀ (s : Nat) (k : Int), (m s k).length ≤ 1
  literal : ∀ (s : Nat) (k k' : Int), m s k ≠ [] → also k k' → LiteralKey env.g k' → m s k' = []
  supplies : SuppliesOn env.pull asks F Q
  allowed : ∀ (s : Nat) (gs : GState) ts ks, env.g.tables.states[s]? = some gs → Keys env m also ts ks → ok s ks → F gs.types ts
  rest : env.fullSource = true → asks allTokenTypes ∧ ∀ ts, Keys env m also ts [] → F allTokenTypes ts

theorem readable_ordinary {t : Token} {k : Nat} (h : Readable env.g env.upper m also t k) :
    0 ≤ t.type ∧ env.g.isSideType t.type = false := ⟨matches_nonneg h.meant, h.ordinary⟩

theorem passed_kind {g : Grammar} {t : Token} (h : Passed g t) : t.type = eofTokenType ∨ g.isSideType t.type = true :=
  h.imp id (·.1)

/-- The parse ends with notifications about the given tree. -/
def Tells (env : PEnv σ) (st0 : Option Token) (T : List Item) (pc : PC σ) : Prop :=
  ∃ its, Closed env anyRule st0 its pc.log pc.lastResult ∧ dropSides env.g its = T

/-- The parse may end before the end of input: some state asks for nothing, or the root may be finished by a token. -/
def EndsEarly (g : Grammar) (m : Table) (node : Nat → Nat) (asks : TokenTypeSet → Prop) : Prop :=
  (∃ (s : Nat) (gs : GState), g.tables.states[s]? = some gs ∧ ¬ asks gs.types) ∨
  ∃ (s : Nat) (k : Int) (r : Rule), r ∈ m s k ∧ r.state = finalState ∧ node s = rootNode ∧ k ≠ anyToken

/-- The bottom of open nodes is the root, it is not finished before other nodes. -/
def Floor (fr : List Part) : Prop := ∀ p, fr.getLast? = some p → p.index = rootNode ∧ (2 ≤ fr.length → p.state ≠ finalState)

theorem floor_top {p p' q : Part} {rest : List Part} (h : Floor (p :: q :: rest)) : Floor (p' :: q :: rest) := by
  intro x hx
  rw [List.getLast?_cons_cons] at hx
  obtain ⟨h1, h2⟩ := h x (by rw [List.getLast?_cons_cons]; exact hx)
  exact ⟨h1, fun _ => h2 (by simp)⟩

theorem floor_one {p : Part} (h : p.index = rootNode) : Floor [p] := by
  intro x hx
  simp only [List.getLast?_singleton, Option.some.injEq] at hx
  subst hx
  exact ⟨h, fun h => by simp at h⟩

theorem floor_same {p p' : Part} {rest : List Part} (hi : p'.index = p.index) (h : Floor (p :: rest)) : Floor (p' :: rest) := by
  cases rest with
  | nil => exact floor_one (hi.trans (h p rfl).1)
  | cons q rest => exact floor_top h

theorem floor_pop {p q q' : Part} {rest : List Part} (hi : q'.index = q.index) (h : Floor (p :: q :: rest)) :
    Floor (q' :: rest) := by
  cases rest with
  | nil => exact floor_one (hi.trans (h q rfl).1)
  | cons x rest =>
    intro y hy
    rw [List.getLast?_cons_cons] at hy
    obtain ⟨h1, h2⟩ := h y (by rw [List.getLast?_cons_cons, List.getLast?_cons_cons]; exact hy)
    exact ⟨h1, fun _ => h2 (by simp)⟩

/-- A node is open if the bottom is not finished. -/
theorem shut_bottom {fr : List Part} {p : Part} (h : fr.getLast? = some p) (hs : p.state ≠ finalState) (x : List Item) : ∃ ps, shut x fr = .inl ps := by
  induction fr generalizing x with
  | nil => cases h
  | cons q rest ih =>
    cases rest with
    | nil =>
      simp only [List.getLast?_singleton, Option.some.injEq] at h
      subst h
      exact ⟨_, by rw [shut, if_neg hs]⟩
    | cons q' rest =>
      rw [List.getLast?_cons_cons] at h
      rw [shut]
      split
      · exact ih h _
      · exact ⟨_, rfl⟩

/-- The same, and nothing but side tokens is left, or nothing at all. -/
def FollowedTo (env : PEnv σ) (st0 : Option Token) (m : Table) (also : Int → Int → Prop) (loose : Prop) (Q : σ → List Token → Prop) (T : List Item)
    (pc : PC σ) : Prop :=
  Tells env st0 T pc ∧ ∃ ts, Q pc.src ts ∧ Keys env m also ts [] ∧ (ts = [] ∨ loose)

/-- The parse goes on while the first token of `ks` is being handled (`ks` is empty at the end of input). -/
def GoesToken (env : PEnv σ) (st0 : Option Token) (m : Table) (also : Int → Int → Prop) (loose : Prop) (Q : σ → List Token → Prop) (fr : List Part)
    (ks : List (Token × Nat)) (T : List Item) : Prop :=
  (∀ (pc : PC σ) (ts : List Token) (t : Token) (k : Nat) (ks1 : List (Token × Nat)), ks = (t, k) :: ks1 →
    Readable env.g env.upper m also t k → Fits env st0 Q pc fr ts → Keys env m also ts ks1 → RunsInner env (FollowedTo env st0 m also loose Q T) pc (some t)) ∧
  ∀ (pc : PC σ) (t : Token), ks = [] → t.type = eoiTokenType → Fits env st0 Q pc fr [] → RunsInner env (FollowedTo env st0 m also loose Q T) pc (some t)

/-- The parse goes on when the next token is not given. -/
def GoesNothing (env : PEnv σ) (st0 : Option Token) (m : Table) (also : Int → Int → Prop) (loose : Prop) (Q : σ → List Token → Prop) (s i : Nat)
    (st : Option Token) (its : List Item) (rest : List Part) (ks : List (Token × Nat)) (T : List Item) : Prop :=
  ∀ (pc : PC σ) (ts : List Token), Fits env st0 Q pc (⟨(s : Int), i, st, its⟩ :: rest) ts → Keys env m also ts ks →
    (∀ t k ks1, ks = (t, k) :: ks1 → m s (k : Nat) = []) → (ks = [] → loose) → RunsInner env (FollowedTo env st0 m also loose Q T) pc none

/-- The parse goes on when a token is needed. -/
def GoesFetch (env : PEnv σ) (st0 : Option Token) (m : Table) (also : Int → Int → Prop) (loose : Prop) (Q : σ → List Token → Prop) (fr : List Part)
    (ks : List (Token × Nat)) (T : List Item) : Prop :=
  ∀ (pc : PC σ) (ts : List Token) (tok : Option Token) (c : Bool), Fits env st0 Q pc fr ts → Keys env m also ts ks →
    ((∃ ps, shut [] fr = .inl ps) ∨ c = true ∧ (ks = [] → loose)) → RunsOuter env (FollowedTo env st0 m also loose Q T) pc tok c

theorem side_nonneg {g : Grammar} {ty : Int} (h : g.isSideType ty = true) : 0 ≤ ty := by
  by_contra hc
  rw [Grammar.isSideType, if_neg hc] at h; cases h

theorem goes_fetch (hf : Followed env m node next after also ok asks F Q) {s i : Nat} {st : Option Token} {its : List Item} {rest : List Part}
    {ks : List (Token × Nat)} {T : List Item} (hnext : ok s ks) (h1 : GoesToken env st0 m also (EndsEarly env.g m node asks) Q (⟨(s : Int), i, st, its⟩ :: rest) ks T)
    (h2 : GoesNothing env st0 m also (EndsEarly env.g m node asks) Q s i st its rest ks T) :
    GoesFetch env st0 m also (EndsEarly env.g m node asks) Q (⟨(s : Int), i, st, its⟩ :: rest) ks T := by
  intro pc ts tok c hfit hk hc
  clear hc
  induction hn : ts.length using Nat.strongRecOn generalizing pc ts tok c with
  | _ n ih =>
    obtain ⟨nd, nds, gs, hs, hst, hgs, hty⟩ := hfit.top
    obtain ⟨N, src, o, ts', h3, h4, h5⟩ := fetch_cases_on hf.supplies (fun t k h => readable_ordinary h) (fun t h => passed_kind h)
      nd.types hk (fun ts hk => by rw [hty]; exact hf.allowed s gs ts ks hgs hk hnext) pc hfit.src
    have hfit' := hfit.fetched (o := o) h4
    refine runs_fetch hs (N := N) (fun f hle => by rw [nextToken_direct hfit.tokens]; exact h3 f hle) ?_
    rcases h5 with ⟨t, rfl, hside, hk', hlt⟩ | ⟨t, k, ks', rfl, rfl, hR, hk'⟩ | ⟨rfl, hk', hw⟩ | ⟨t, rfl, ht, rfl, rfl⟩
    · have h0 : 0 ≤ t.type := by
        by_contra hc
        rw [Grammar.isSideType, if_neg hc] at hside; cases hside
      have hcon : consumes ⟨t.type, repeatState, sameNode⟩ (some t) = true := by
        simp only [consumes, decide_eq_true_eq]
        left
        exact ⟨trivial, by unfold anyToken; omega⟩
      obtain ⟨pc', h6, h7⟩ := hfit'.apply hf.hooks (tok := some t) (r := ⟨t.type, repeatState, sameNode⟩) (first := 0)
        (fun h => absurd (show (0 : Int) ≤ sameNode from h) (by decide)) (by
        intro _
        refine ⟨pc.stack.map (·.toFrame), ?_, hfit.frames⟩
        show applyQuiet env.g (some t) _ (pc.stack.map (·.toFrame)) = _
        rw [hs, List.map_cons, applyQuiet, moveFrame, if_pos rfl, Option.bind_some, if_neg (by simp), Option.map_some, popFrames,
          if_neg (by rw [hst]; unfold finalState; omega)])
      have hgr : grown env.g (some t) ⟨t.type, repeatState, sameNode⟩ 0 (⟨(s : Int), i, st, its⟩ :: rest) = ⟨(s : Int), i, st, its⟩ :: rest := by
        simp [grown, hside, Spec.after, repeatState]
      rw [hgr] at h7
      rw [hcon] at h6
      refine runs_consume (node := nd) (rest := nds) (by exact hs) hfit'.applied ?_ h6 (ih _ (by omega) _ ts' _ _ h7 hk' rfl)
      rw [hst, findRules]
      have : Go.index env.g.tables.states (s : Int) = some gs := by simp [Go.index, hgs]
      rw [this, Option.bind_some]
      dsimp only
      rw [if_pos hside]
    · exact h1.1 _ ts' t k ks' rfl hR hfit' hk'
    · refine h2 _ ts' hfit' hk' ?_ ?_
      swap
      · rintro rfl
        have hl : ¬ asks nd.types → EndsEarly env.g m node asks := fun h => .inl ⟨s, gs, hgs, by rwa [← hty]⟩
        cases hk' with
        | nil => exact hl hw
        | side hp _ =>
          rcases hp with hp | ⟨hp1, hp2, hp3⟩
          · refine hl fun hc => hw ?_
            rw [Wanted, if_pos (by rw [hp]; decide)]
            exact hc
          · refine absurd ?_ hw
            have h0 := side_nonneg hp1
            rw [Wanted, if_neg (by omega), hty]
            exact hp3 s gs hgs
      intro t k ks1 hks
      subst hks
      by_contra hne
      cases hk' with
      | @side t1 ts2 _ hp hk2 =>
        -- a side token or the end of a source is not given
        rcases hp with hp | ⟨hp1, hp2, hp3⟩
        · have h0 : ¬ asks nd.types := by
            intro hc
            apply hw
            rw [Wanted, if_pos (by rw [hp]; decide)]
            exact hc
          have key : ∀ {ts : List Token}, (∀ t ∈ ts, 0 ≤ t.type → nd.types.getLsbD t.type.toNat = true → asks nd.types) →
              KeyedBy (Readable env.g env.upper m also) (Passed env.g) ts ((t, k) :: ks1) → False := by
            intro ts hask hk
            generalize hl : (t, k) :: ks1 = l at hk
            induction hk with
            | nil => cases hl
            | side _ _ ih => exact ih (fun t ht => hask t (by simp [ht])) hl
            | tok hR _ _ =>
              cases hl
              have := hR.expected s gs hgs hne
              rw [← hty] at this
              exact h0 (hask t (by simp) (readable_ordinary hR).1 this)
          exact key (fun t ht => hf.supplies.asked _ _ _ h4 t (by simp [ht])) hk2
        · apply hw
          have h0 : 0 ≤ t1.type := by
            by_contra hc
            rw [Grammar.isSideType, if_neg hc] at hp1; cases hp1
          rw [Wanted, if_neg (by omega), hty]
          exact hp3 s gs hgs
      | tok hR hk2 =>
        apply hw
        rw [Wanted, if_neg (by have := (readable_ordinary hR).1; omega), hty]
        exact hR.expected s gs hgs hne
    · exact h1.2 _ t rfl ht hfit'

theorem single_of {s : Nat} {k : Int} {r : Rule} (h : (m s k).length ≤ 1) (hr : r ∈ m s k) : m s k = [r] := by
  match hm : m s k, h, hr with
  | [], _, hr => cases hr
  | [x], _, hr => cases List.mem_singleton.mp hr; rfl

theorem after_closed {g : Grammar} (hcl : RulesClosed g m) {s : Nat} {k : Int} {r : Rule} (hr : r ∈ m s k) (s' : Int) :
    Spec.after r s' = r.state := by
  rw [Spec.after, if_neg]
  rcases hcl.1 s k r hr with h | ⟨n, gs, h1, -⟩
  · rw [h]; decide
  · omega

/-- The parser follows every run. -/
theorem way_followed (hf : Followed env m node next after also ok asks F Q) {fr : List Part} {ks : List (Token × Nat)} {T : List Item}
    (h : GreedyWay env.g m also ok fr ks T) : Stacked node next after fr → EndsEarly env.g m node asks ∨ Floor fr →
      GoesToken env st0 m also (EndsEarly env.g m node asks) Q fr ks T ∧ GoesFetch env st0 m also (EndsEarly env.g m node asks) Q fr ks T := by
  induction h with
  | @done i st its =>
    intro _ _
    have hshut : shut [] [⟨finalState, i, st, its⟩] = .inr its := by simp [shut]
    have hend : ∀ {pc : PC σ} {ts : List Token}, Fits env st0 Q pc [⟨finalState, i, st, its⟩] ts → pc.stack = [] ∧ Tells env st0 its pc := by
      intro pc ts h
      have h1 := h.tree
      rw [hshut] at h1
      exact h1
    refine ⟨⟨fun _ _ _ _ _ h => (by cases h), fun pc t _ ht hfit => ?_⟩, fun pc ts tok c hfit hk hc => ?_⟩
    · refine runs_left (hend hfit).1 ⟨0, fun f _ => ⟨pc, ?_, (hend hfit).2, [], hfit.src, .nil, .inl rfl⟩⟩
      rw [finish, putBack]
      simp [ht, bindRun]
    · obtain ⟨hc, hlo⟩ : c = true ∧ EndsEarly env.g m node asks := by
        rcases hc with ⟨ps, hc⟩ | ⟨hc, hlo⟩
        · rw [hshut] at hc; cases hc
        · exact ⟨hc, hlo rfl⟩
      subst hc
      refine runs_empty (hend hfit).1 ?_
      have hp := (hend hfit).2
      by_cases hfull : env.fullSource = true
      · obtain ⟨N, hN⟩ := restLoop_passes_on hf.supplies (hf.rest hfull).1 (hf.rest hfull).2 (fun t k h => readable_ordinary h)
          (fun t h => passed_kind h) _ pc ts rfl hfit.tokens hfit.src hk
        refine ⟨N, fun f hle => ?_⟩
        rw [finish, putBack.eq_def]
        simp only [if_true, bindRun]
        split
        · obtain ⟨pc', h1, h2, h3, h4⟩ := hN f hle
          refine ⟨pc', h1, ?_, [], h4, .nil, .inl rfl⟩
          rw [Tells, h2, h3]
          exact hp
        · exact ⟨_, rfl, hp, ts, hfit.src, hk, .inr hlo⟩
      · refine ⟨0, fun f _ => ?_⟩
        rw [finish, putBack.eq_def]
        simp only [if_true, bindRun]
        rw [if_neg (fun h => hfull h.1)]
        exact ⟨_, rfl, hp, ts, hfit.src, hk, .inr hlo⟩
  | @pop i st its q rest ks T _ ih =>
    intro hst hfl
    have hu : shut [] (⟨finalState, i, st, its⟩ :: q :: rest) = shut [] ({ q with items := q.items ++ [.node i st its] } :: rest) := shut_closed rfl
    have hfits : ∀ {pc : PC σ} {ts : List Token}, Fits env st0 Q pc (⟨finalState, i, st, its⟩ :: q :: rest) ts →
        Fits env st0 Q pc ({ q with items := q.items ++ [.node i st its] } :: rest) ts := by
      intro pc ts h
      exact ⟨by rw [← hu]; exact h.tree, h.frames, h.live, h.tokens, h.applied, h.src⟩
    obtain ⟨h1, h2⟩ := ih hst.2.2.content (hfl.imp id fun h => floor_pop (q := q) rfl h)
    refine ⟨⟨fun pc ts t k ks1 e1 e2 e3 e4 => h1.1 pc ts t k ks1 e1 e2 (hfits e3) e4,
      fun pc t e1 e2 e3 => h1.2 pc t e1 e2 (hfits e3)⟩, fun pc ts tok c e1 e2 e3 => h2 pc ts tok c (hfits e1) e2 ?_⟩
    rwa [hu] at e3
  | @skip s r i st its rest ks T hr hn hok hgr' hw ih =>
    intro hst hfl
    obtain ⟨h1, h2⟩ := ih (hst.moved hf.predicts hr) (hfl.imp id fun h => floor_same (p := ⟨(s : Int), i, st, its⟩) rfl h)
    have hany : m s anyToken = [r] := single_of (hf.single s anyToken) hr
    have hrt : r.token = anyToken := hf.means.token _ _ _ hr
    have hcon : ∀ t, consumes r (some t) = false := by intro t; simp [consumes, hrt]
    have hgr : ∀ tok, grown env.g tok r 0 (⟨(s : Int), i, st, its⟩ :: rest) = ⟨r.state, i, st, its⟩ :: rest := by
      intro tok
      cases tok <;> simp [grown, hn, hrt, after_closed hf.closed hr]
    have happ : ∀ {pc : PC σ} {ts : List Token} (tok : Option Token), Fits env st0 Q pc (⟨(s : Int), i, st, its⟩ :: rest) ts →
        ∃ pc', applyRule env pc tok r = .done (.ok (pc', consumes r tok)) ∧ Fits env st0 Q pc' (⟨r.state, i, st, its⟩ :: rest) ts := by
      intro pc ts tok hfit
      rw [← hgr tok]
      exact hfit.apply hf.hooks (first := 0) (fun h => absurd h (by rw [hn]; decide)) (fun hne => applyQuiet_same hf.closed hr hn tok hne hfit.frames)
    have hlt : ∀ {gs : GState}, env.g.tables.states[s]? = some gs → s < env.g.tables.states.length :=
      fun h => (List.getElem?_eq_some_iff.mp h).1
    have htok : GoesToken env st0 m also (EndsEarly env.g m node asks) Q (⟨(s : Int), i, st, its⟩ :: rest) ks T := by
      refine ⟨fun pc ts t k ks1 e1 e2 e3 e4 => ?_, fun pc t e1 e2 e3 => ?_⟩
      · subst e1
        obtain ⟨h3, h4⟩ := hgr' t k ks1 rfl
        obtain ⟨nd, st, gs, hs, hns, hgs, -⟩ := e3.top
        obtain ⟨pc', h5, h6⟩ := happ (some t) e3
        rw [hcon] at h5
        refine runs_go hs e3.applied ?_ h5 (h1.1 pc' ts t k ks1 rfl e2 h6 e4)
        rw [hns, findRules_skips hf.means hf.distinct e2 (hlt hgs) h3 h4, hany]
      · subst e1
        obtain ⟨nd, st, gs, hs, hns, hgs, -⟩ := e3.top
        obtain ⟨pc', h5, h6⟩ := happ (some t) e3
        rw [hcon] at h5
        refine runs_go hs e3.applied ?_ h5 (h1.2 pc' t rfl e2 h6)
        rw [hns, findRules_eoiKey hf.means hf.distinct e2 (hlt hgs), hany]
        by_contra hne
        rcases hf.keys s _ hne with h | h
        · exact absurd h (by decide)
        · exact absurd h (by decide)
    refine ⟨htok, goes_fetch hf hok htok ?_⟩
    intro pc ts e1 e2 _ e4
    obtain ⟨nd, st, gs, hs, hns, hgs, -⟩ := e1.top
    obtain ⟨pc', h5, h6⟩ := happ none e1
    have hc : consumes r none = true := by simp [consumes]
    rw [hc] at h5
    refine runs_consume hs e1.applied ?_ h5 (h2 pc' ts none true h6 e2 (.inr ⟨rfl, e4⟩))
    rw [hns, C39_no_token hf.means s (hlt hgs), hany]
  | @read s t0 k r i st its rest ks1 T hr hn hok hw ih =>
    intro hst hfl
    obtain ⟨-, h2⟩ := ih (hst.moved hf.predicts hr) (hfl.imp id fun h => floor_same (p := ⟨(s : Int), i, st, its⟩) rfl h)
    have hka : (k : Int) ≠ anyToken := by unfold anyToken; omega
    have hopen : ∀ {its : List Item}, (∃ ps, shut [] (⟨r.state, i, st, its⟩ :: rest) = .inl ps) ∨ true = true ∧ (ks1 = [] → EndsEarly env.g m node asks) := by
      intro its
      rcases hfl with hfl | hfl
      · exact .inr ⟨rfl, fun _ => hfl⟩
      · cases rest with
        | nil =>
          by_cases hfin : r.state = finalState
          · refine .inr ⟨rfl, fun _ => .inr ⟨s, k, r, hr, hfin, ?_, hka⟩⟩
            exact (hst.1 s rfl).trans (hfl _ rfl).1
          · exact .inl ⟨_, shut_open hfin⟩
        | cons q rest =>
          obtain ⟨p, hp⟩ : ∃ p, (q :: rest).getLast? = some p := ⟨_, List.getLast?_eq_some_getLast (by simp)⟩
          exact .inl (shut_bottom (p := p) (by rw [List.getLast?_cons_cons]; exact hp) ((hfl p (by rw [List.getLast?_cons_cons]; exact hp)).2 (by simp)) [])
    have hone : m s k = [r] := single_of (hf.single s k) hr
    have hrt : r.token = k := hf.means.token _ _ _ hr
    have htok : GoesToken env st0 m also (EndsEarly env.g m node asks) Q (⟨(s : Int), i, st, its⟩ :: rest) ((t0, k) :: ks1) T := by
      refine ⟨fun pc ts t k' ks' e1 e2 e3 e4 => ?_, fun pc t e1 e2 e3 => by cases e1⟩
      obtain ⟨rfl, rfl, rfl⟩ : t0 = t ∧ k = k' ∧ ks1 = ks' := by simpa [and_assoc] using e1
      obtain ⟨nd, nds, gs, hs, hns, hgs, -⟩ := e3.top
      obtain ⟨pc', h5, h6⟩ := e3.apply hf.hooks (tok := some t0) (first := 0) (fun h => absurd h (by rw [hn]; decide))
        (fun hne => applyQuiet_same hf.closed hr hn (some t0) hne e3.frames)
      have hgr : grown env.g (some t0) r 0 (⟨(s : Int), i, st, its⟩ :: rest) = ⟨r.state, i, st, its ++ [.tok t0]⟩ :: rest := by
        have : (k : Int) ≠ anyToken := by unfold anyToken; omega
        simp [grown, hn, hrt, after_closed hf.closed hr, e2.ordinary, this]
      rw [hgr] at h6
      have hc : consumes r (some t0) = true := by
        simp only [consumes, decide_eq_true_eq]
        exact .inl ⟨hn, by rw [hrt]; unfold anyToken; omega⟩
      rw [hc] at h5
      refine runs_consume hs e3.applied ?_ h5 (h2 pc' ts (some t0) true h6 e4 hopen)
      rw [hns, findRules_takes hf.means hf.distinct e2 (List.getElem?_eq_some_iff.mp hgs).1 (by rw [hone]; simp)
        (fun k' h7 h8 => hf.literal s k k' (by rw [hone]; simp) h7 h8), hone]
    refine ⟨htok, goes_fetch hf hok htok ?_⟩
    intro pc ts e1 e2 e3 _
    have := e3 _ _ _ rfl
    rw [hone] at this; cases this
  | @push s t0 k r n f i st its rest ks1 T hr hn hfs hok hw ih =>
    intro hst hfl
    have hka : (k : Int) ≠ anyToken := by unfold anyToken; omega
    have hfl' : EndsEarly env.g m node asks ∨ Floor (⟨f, n, some t0, []⟩ :: ⟨r.state, i, st, its⟩ :: rest) := by
      rcases hfl with hfl | hfl
      · exact .inl hfl
      · cases rest with
        | nil =>
          have hi : i = rootNode := (hfl _ rfl).1
          by_cases hfin : r.state = finalState
          · exact .inl (.inr ⟨s, k, r, hr, hfin, (hst.1 s rfl).trans hi, hka⟩)
          · refine .inr fun x hx => ?_
            simp only [List.getLast?_cons_cons, List.getLast?_singleton, Option.some.injEq] at hx
            subst hx
            exact ⟨hi, fun _ => hfin⟩
        | cons q rest =>
          refine .inr fun x hx => ?_
          rw [List.getLast?_cons_cons, List.getLast?_cons_cons] at hx
          obtain ⟨h1, h2⟩ := hfl x (by rw [List.getLast?_cons_cons]; exact hx)
          exact ⟨h1, fun _ => h2 (by simp)⟩
    obtain ⟨h1, -⟩ := ih (hst.pushed hf.predicts hr hn hfs) hfl'
    have hone : m s k = [r] := single_of (hf.single s k) hr
    have htok : GoesToken env st0 m also (EndsEarly env.g m node asks) Q (⟨(s : Int), i, st, its⟩ :: rest) ((t0, k) :: ks1) T := by
      refine ⟨fun pc ts t k' ks' e1 e2 e3 e4 => ?_, fun pc t e1 e2 e3 => by cases e1⟩
      obtain ⟨rfl, rfl, rfl⟩ : t0 = t ∧ k = k' ∧ ks1 = ks' := by simpa [and_assoc] using e1
      obtain ⟨nd, nds, gs, hs, hns, hgs, -⟩ := e3.top
      obtain ⟨pc', h5, h6⟩ := e3.apply hf.hooks (tok := some t0) (first := f) (fun _ => by rw [hn]; exact hfs)
        (fun hne => applyQuiet_push hf.closed hr hn hfs (some t0) hne e3.frames)
      have hgr : grown env.g (some t0) r f (⟨(s : Int), i, st, its⟩ :: rest) = ⟨f, n, some t0, []⟩ :: ⟨r.state, i, st, its⟩ :: rest := by
        have : (n : Int) ≠ sameNode := by unfold sameNode; omega
        simp [grown, hn, after_closed hf.closed hr, this]
      rw [hgr] at h6
      have hc : consumes r (some t0) = false := by
        simp only [consumes, decide_eq_false_iff_not, hn, reduceCtorEq, or_false, not_and]
        intro h; unfold sameNode at h; omega
      rw [hc] at h5
      refine runs_go hs e3.applied ?_ h5 (h1.1 pc' ts t0 k ks1 rfl e2 h6 e4)
      rw [hns, findRules_takes hf.means hf.distinct e2 (List.getElem?_eq_some_iff.mp hgs).1 (by rw [hone]; simp)
        (fun k' h7 h8 => hf.literal s k k' (by rw [hone]; simp) h7 h8), hone]
    refine ⟨htok, goes_fetch hf hok htok ?_⟩
    intro pc ts e1 e2 e3 _
    have := e3 _ _ _ rfl
    rw [hone] at this; cases this

/-- Ends of sources may be anywhere. -/
theorem KeyedBy.filtered {g : Grammar} {R : Token → Nat → Prop} {ts : List Token} {ks : List (Token × Nat)}
    (h : KeyedBy R (Passed g) (ts.filter fun t => t.type ≠ eofTokenType) ks) : KeyedBy R (Passed g) ts ks := by
  induction ts generalizing ks with
  | nil => exact h
  | cons t ts ih =>
    by_cases ht : t.type = eofTokenType
    · rw [List.filter_cons_of_neg (by simpa using ht)] at h
      exact .side (.inl ht) (ih h)
    · rw [List.filter_cons_of_pos (by simpa using ht)] at h
      cases h with
      | side h1 h2 => exact .side h1 (ih h2)
      | tok h1 h2 => exact .tok h1 (ih h2)

theorem KeyedBy.mono {R : Token → Nat → Prop} {P P' : Token → Prop} (hP : ∀ t, P t → P' t) {ts : List Token} {ks : List (Token × Nat)}
    (h : KeyedBy R P ts ks) : KeyedBy R P' ts ks := by
  induction h with
  | nil => exact .nil
  | side h1 _ ih => exact .side (hP _ h1) ih
  | tok h1 _ ih => exact .tok h1 ih

theorem stacked_start {g : Grammar} (hp : Predicts g m node next after) {first : Nat} (hfirst : g.firsts[rootNode]? = some first) (st : Option Token) :
    Stacked node next after [⟨(first : Int), rootNode, st, []⟩] := by
  refine ⟨fun n hn => ?_, hp.root, trivial⟩
  have : first = n := by simpa using hn
  subst this
  exact hp.first _ _ hfirst

/-- The whole parse. -/
theorem run_followed_on (hf : Followed env m node next after also ok asks F Q) {first : Nat} (hfirst : env.g.firsts[rootNode]? = some first)
    {ks : List (Token × Nat)} {T : List Item} {q : σ} {ts : List Token} (hq : Q q ts)
    (hk : Keys env m also ts ks) (pos : SrcPos) (hw : GreedyWay env.g m also ok [⟨(first : Int), rootNode, some (rootToken pos), []⟩] ks T) :
    ∃ N, ∀ fuel, N ≤ fuel → ∃ pc, parse env fuel q pos = .done (.ok pc) ∧ FollowedTo env (some (rootToken pos)) m also (EndsEarly env.g m node asks) Q T pc := by
  obtain ⟨gs, hgs⟩ := hf.closed.2 _ _ hfirst
  obtain ⟨pc, h1, h2, hl⟩ := pushNode_pass (pc := { src := q }) (tok := some (rootToken pos)) hf.hooks (by simp) hfirst hgs
  have hst : Stacked node next after [⟨(first : Int), rootNode, some (rootToken pos), []⟩] := stacked_start hf.predicts hfirst _
  have hfit : Fits env (some (rootToken pos)) Q pc [⟨(first : Int), rootNode, some (rootToken pos), []⟩] ts := by
    have h4 := shown_start h1 hfirst
    obtain ⟨stack, log, last, h3⟩ := pushNode_spec h1
    refine ⟨by rw [shut_nat]; exact h4, ?_, hl, by rw [h3], by rw [h3], by rw [h3]; exact hq⟩
    rw [h2]
    intro f hf
    cases List.mem_singleton.mp hf
    exact .inr ⟨first, gs, rfl, hgs, rfl⟩
  obtain ⟨N, hN⟩ := (way_followed hf hw hst (.inr (floor_one rfl))).2 pc ts none false hfit hk (.inl ⟨_, shut_nat⟩)
  refine ⟨N, fun fuel hle => ?_⟩
  obtain ⟨pc', h4, h5⟩ := hN fuel fuel hle hle
  refine ⟨pc', ?_, h5⟩
  rw [parse]
  rw [show (some { type := anyToken, typeName := "", content := [], pos := pos } : Option Token) = some (rootToken pos) from rfl, h1]
  exact h4

theorem run_followed (hm : Means env.g.tables m) (hd : DistinctLiterals env.g) (hh : HooksAnswer env) (hc : RulesClosed env.g m)
    (hkeys : ∀ (s : Nat) (k : Int), m s k ≠ [] → 0 ≤ k ∨ k = anyToken) (hp : Predicts env.g m node next after)
    (h1 : OneToken env.g m node next after also) (hs : Supplies env.pull asks Q) {first : Nat} (hfirst : env.g.firsts[rootNode]? = some first)
    {ks : List (Token × Nat)} {T : List Item} {q : σ} {ts : List Token} (hq : Q q ts)
    (hk : Keys env m also ts ks) (pos : SrcPos) (hw : Way env.g m [⟨(first : Int), rootNode, some (rootToken pos), []⟩] ks T) :
    ∃ N, ∀ fuel, N ≤ fuel → ∃ pc, parse env fuel q pos = .done (.ok pc) ∧ Tells env (some (rootToken pos)) T pc := by
  obtain ⟨N, h⟩ := run_followed_on ⟨hm, hd, hh, hc, hkeys, hp, h1.single, h1.literal, hs.on, fun _ _ _ _ _ _ _ => trivial,
    fun _ => ⟨hs.any, fun _ _ => trivial⟩⟩ hfirst hq hk pos (way_greedy hp h1 hw (stacked_start hp hfirst _))
  exact ⟨N, fun fuel hf => let ⟨pc, e1, e2, _⟩ := h fuel hf; ⟨pc, e1, e2⟩⟩

end Follow

end Verif.Proof
