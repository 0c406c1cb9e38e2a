/-
The lookahead chooses the rules of the run when tokens read ahead settle every conflict.
-/
import Verif.Proof.ManyTokens
import Verif.Proof.ParseFuel

namespace Verif.Proof

open Verif.Model Verif.Spec Verif.Props
open Verif.Model.Tree (bindRun)

variable {σ : Type} {env : PEnv σ} {m : Table} {node : Nat → Nat} {next after : Nat → Int → Prop} {also : Int → Int → Prop}
  {asks : TokenTypeSet → Prop} {Q : σ → List Token → Prop} {P : Option Token → Prop}

/-- What is needed to follow a run with lookahead: tables, hooks, tokens. -/
structure SettledEnv (env : PEnv σ) (m : Table) (node : Nat → Nat) (next after : Nat → Int → Prop) (also : Int → Int → Prop)
    (asks : TokenTypeSet → Prop) (Q : σ → List Token → Prop) (P : Option Token → Prop) : Prop where
  ahead : AheadTables env.g m node next after also
  hooks : HooksAnswer env
  supplies : Supplies env.pull asks Q
  mono : ∀ a b, asks a → asks (a ||| b)
  safe : SafeLookaheadOn P env.g env.upper
  settles : Settles env.g env.upper P env.passSides asks node after
  gives : GivesOnly env Q P

theorem SettledEnv.stream (hs : SettledEnv env m node next after also asks Q P) (q : σ) (ts : List Token) (hq : Q q ts) :
    ∀ t ∈ ts, 0 ≤ t.type → env.g.isSideType t.type = false → P (some t) := by
  intro t ht h0 h1
  refine hs.gives.stream q ts hq t ht (fun h => ?_) (fun h => ?_)
  · rw [h] at h0; exact absurd h0 (by decide)
  · rw [h1] at h; cases h.1

/-- What is given satisfies `P`. -/
theorem nextLoop_gives (hg : GivesOnly env Q P) (hsup : Supplies env.pull asks Q) {types : TokenTypeSet} (fuel : Nat) {pc pc' : PC σ}
    {ts : List Token} (hq : Q pc.src ts) {tok : Option Token} (h : nextLoop env types fuel pc = .done (pc', .ok tok)) : P tok := by
  induction fuel generalizing pc ts with
  | zero => simp [nextLoop] at h
  | succ fuel ih =>
    rw [nextLoop, bindRun_done] at h
    obtain ⟨⟨src, r⟩, h1, h⟩ := h
    cases r with
    | error e => cases h
    | ok t =>
      dsimp only at h
      have hQ : (∃ ts', Q src ts') ∧ (¬ (t.any (fun t => t.type = eofTokenType) = true) → ¬ (env.g.isSideToken t = true ∧ ¬ env.passSides = true) → P t) := by
        cases ts with
        | nil =>
          by_cases ha : asks types
          · obtain ⟨q', e, h2, h3, h4⟩ := hsup.ending _ _ hq ha
            rw [h1] at h2; cases h2
            exact ⟨⟨_, h4⟩, fun _ _ => hg.ending _ h3⟩
          · obtain ⟨q', h2, h4⟩ := hsup.nothing _ _ hq ha
            rw [h1] at h2; cases h2
            exact ⟨⟨_, h4⟩, fun _ _ => hg.nothing⟩
        | cons t0 ts =>
          by_cases ha : Wanted asks types t0
          · obtain ⟨q', h2, h4⟩ := hsup.given _ _ _ _ hq ha
            rw [h1] at h2; cases h2
            refine ⟨⟨_, h4⟩, fun h5 h6 => hg.stream _ _ hq t0 (by simp) (by simpa using h5) (fun ⟨h7, h8⟩ => h6 ⟨h7, by simp [h8]⟩)⟩
          · obtain ⟨q', h2, h4⟩ := hsup.refused _ _ _ _ hq ha
            rw [h1] at h2; cases h2
            exact ⟨⟨_, h4⟩, fun _ _ => hg.nothing⟩
      obtain ⟨⟨ts', hQ1⟩, hQ2⟩ := hQ
      split at h
      · exact ih (pc := { pc with src := src }) hQ1 h
      · rename_i hn
        cases h
        rw [not_or] at hn
        exact hQ2 hn.1 hn.2

/-- The request gives nothing. -/
def Refused (asks : TokenTypeSet → Prop) (types : TokenTypeSet) : List Token → Prop
  | [] => ¬ asks types
  | t :: _ => ¬ Wanted asks types t

/-- What is given on a request. -/
def Answered (env : PEnv σ) (m : Table) (also : Int → Int → Prop) (asks : TokenTypeSet → Prop) (types : TokenTypeSet) (ks : List (Token × Nat))
    (o : Option Token) (ts : List Token) : Prop :=
  (∃ t, o = some t ∧ env.g.isSideType t.type = true ∧ env.passSides = true ∧ Keys env m also ts ks) ∨
  (∃ t k ks', o = some t ∧ ks = (t, k) :: ks' ∧ Readable env.g env.upper m also t k ∧ Keys env m also ts ks') ∨
  (o = none ∧ Keys env m also ts ks ∧ Refused asks types ts) ∨
  (∃ t, o = some t ∧ t.type = eoiTokenType ∧ ks = [] ∧ ts = [])

theorem fetch_fine (hsup : Supplies env.pull asks Q) (types : TokenTypeSet) {ts : List Token} {ks : List (Token × Nat)} (hk : Keys env m also ts ks)
    (f : Nat) (pc : PC σ) (hq : Q pc.src ts) :
    Fine (fun r => ∃ src o ts', r = ({ pc with src := src, delivered := pc.delivered ++ [o] }, .ok o) ∧ Q src ts' ∧ Answered env m also asks types ks o ts')
      (nextLoop env types f pc) := by
  obtain ⟨N, src, o, ts', h1, h2, h3⟩ := fetch_cases hsup (fun t k h => readable_ordinary h) (fun t h => passed_kind h) types hk pc hq
  have hst : Stays (nextLoop env types f pc) (nextLoop env types (max f N) pc) :=
    nextLoop_stays (env := env) (pull := env.pull) (fun _ _ => Stays.refl _) types f (max f N) (Nat.le_max_left _ _) pc
  rw [h1 _ (Nat.le_max_right _ _)] at hst
  rcases hst with hst | hst
  · rw [hst]; trivial
  · have hside : env.g.isSideToken o = true → env.passSides = true := by
      refine (nextLoop_fed (P := fun o => env.g.isSideToken o = true → env.passSides = true) ?_ f hst).1
      intro src types src' tok _ _ h h1
      by_contra hc
      exact h ⟨h1, hc⟩
    rw [hst]
    refine ⟨src, o, ts', rfl, h2, ?_⟩
    rcases h3 with ⟨t, rfl, e1, e2, -⟩ | h3 | h3 | h3
    · exact .inl ⟨t, rfl, e1, hside e1, e2⟩
    · exact .inr (.inl h3)
    · obtain ⟨e1, e2, e3⟩ := h3
      refine .inr (.inr (.inl ⟨e1, e2, ?_⟩))
      cases ts' <;> exact e3
    · exact .inr (.inr (.inr h3))

theorem or_bit {a z : TokenTypeSet} {i : Nat} (h : a.getLsbD i = true) : (a ||| z).getLsbD i = true := by
  rw [BitVec.getLsbD_or, h, Bool.true_or]

/-- A token with rules in the state is given if types of the state are requested. -/
theorem fetched_unwanted (hsup : Supplies env.pull asks Q) {types : TokenTypeSet} {src : σ} {ts : List Token} (hq : Q src ts)
    {s : Nat} {gs : GState} (hgs : env.g.tables.states[s]? = some gs) {z : TokenTypeSet} (hz : types = gs.types ||| z)
    {t : Token} {k : Nat} {ks1 : List (Token × Nat)} (hk' : Keys env m also ts ((t, k) :: ks1))
    (hw : Refused asks types ts) : m s (k : Nat) = [] := by
  by_contra hne
  have hbit : ∀ {i}, gs.types.getLsbD i = true → types.getLsbD i = true := by intro i hi; rw [hz]; exact or_bit hi
  have hask0 := hsup.asked _ _ types hq
  clear hq
  cases hk' with
  | @side t1 ts2 _ hp hk2 =>
    rcases hp with hp | ⟨hp1, hp2, hp3⟩
    · have h0 : ¬ asks types := by
        intro hc
        apply hw
        rw [Wanted, if_pos (by rw [hp]; decide)]
        exact hc
      have key : ∀ {ts : List Token}, (∀ t ∈ ts, 0 ≤ t.type → types.getLsbD t.type.toNat = true → asks types) →
          KeyedBy (Readable env.g env.upper m also) (Passed env.g) ts ((t, k) :: ks1) → False := by
        intro ts hask hk
        generalize hl : (t, k) :: ks1 = l at hk
        induction hk with
        | nil => cases hl
        | side _ _ ih => exact ih (fun t ht => hask t (by simp [ht])) hl
        | tok hR _ _ =>
          cases hl
          have := hR.expected s gs hgs hne
          exact h0 (hask t (by simp) (readable_ordinary hR).1 (hbit this))
      exact key (fun t ht => hask0 t (by simp [ht])) hk2
    · apply hw
      have h0 : 0 ≤ t1.type := by
        by_contra hc
        rw [Grammar.isSideType, if_neg hc] at hp1; cases hp1
      rw [Wanted, if_neg (by omega)]
      exact hbit (hp3 s gs hgs)
  | tok hR hk2 =>
    apply hw
    rw [Wanted, if_neg (by have := (readable_ordinary hR).1; omega)]
    exact hbit (hR.expected s gs hgs hne)

/-- Tokens at hand that are left when the rules are applied. -/
def Ready (env : PEnv σ) (m : Table) (also : Int → Int → Prop) (os : List (Option Token)) (ts : List Token) (ks : List (Token × Nat)) : Prop :=
  (os = [] ∧ Keys env m also ts ks) ∨
  (∃ t k ks1, os = [some t] ∧ ks = (t, k) :: ks1 ∧ Readable env.g env.upper m also t k ∧ Keys env m also ts ks1) ∨
  (∃ t, os = [some t] ∧ t.type = eoiTokenType ∧ ks = [] ∧ ts = [])

/-- The token to trace; `x` are states of the variant. -/
def AtHand (env : PEnv σ) (m : Table) (also : Int → Int → Prop) (tok : Option Token) (x : List Int) (ks : List (Token × Nat)) (ts : List Token) : Prop :=
  (∃ t k ks1, tok = some t ∧ ks = (t, k) :: ks1 ∧ Readable env.g env.upper m also t k ∧ Keys env m also ts ks1) ∨
  (∃ t, tok = some t ∧ t.type = eoiTokenType ∧ ks = [] ∧ ts = []) ∨
  (tok = none ∧ Keys env m also ts ks ∧ x ≠ [] ∧ Unwanted m x ks) ∨
  (∃ t, tok = some t ∧ env.g.isSideType t.type = true ∧ Keys env m also ts ks ∧ x ≠ [])

theorem atHand_step {upper : List Nat → List Nat} (ha : AheadTables env.g m node next after also) {i0 : Nat} {tok : Option Token} {own low : List Part}
    {ks : List (Token × Nat)} {ts : List Token} {T : List Item} (hu : upper = env.upper) (h : AtHand env m also tok (partStates own) ks ts)
    (hw : Way env.g m (own ++ low) ks T) (ho : Own env.g node next after i0 own low) :
    (∃ ks1, UsesIt env.g upper m node next after i0 tok own low ks1 T ∧ Keys env m also ts ks1) ∨
    ∃ t, tok = some t ∧ GoesOut env.g upper m node next after i0 t own low ks T ∧ MayCome env.g upper env.passSides after i0 t ∧ Ready env m also [some t] ts ks := by
  subst hu
  rcases h with ⟨t, k, ks1, rfl, rfl, hR, hk⟩ | ⟨t, rfl, ht, rfl, rfl⟩ | ⟨rfl, hk, hx, hun⟩ | ⟨t, rfl, hs, hk, hx⟩
  · rcases way_token ha hw own low rfl ho t (.inl ⟨k, ks1, rfl, hR⟩) with ⟨k', ks', h1, h2⟩ | h2
    · cases h1
      exact .inl ⟨ks1, h2, hk⟩
    · obtain ⟨rs, fr', -, -, -, -, h3⟩ := id h2
      exact .inr ⟨t, rfl, h2, .inl ⟨k, h3, hR.meant⟩, .inr (.inl ⟨t, k, ks1, rfl, rfl, hR, hk⟩)⟩
  · rcases way_token ha hw own low rfl ho t (.inr ⟨rfl, ht⟩) with ⟨k', ks', h1, h2⟩ | h2
    · cases h1
    · obtain ⟨rs, fr', -, -, -, -, h3⟩ := id h2
      exact .inr ⟨t, rfl, h2, .inr (.inl ⟨ht, h3⟩), .inr (.inr ⟨t, rfl, ht, rfl, rfl⟩)⟩
  · exact .inl ⟨ks, way_none ha hw ho hx hun, hk⟩
  · exact .inl ⟨ks, way_side hs hw ho hx, hk⟩

theorem atHand_ok {tok : Option Token} {x : List Int} {ks : List (Token × Nat)} {ts : List Token} (h : AtHand env m also tok x ks ts) : OkTok env.g tok := by
  intro t' ht'
  rcases h with ⟨t, k, ks1, rfl, rfl, hR, hk⟩ | ⟨t, rfl, ht, rfl, rfl⟩ | ⟨rfl, hk, hx, hun⟩ | ⟨t, rfl, hs, hk, hx⟩
  · cases ht'; exact hR.known
  · cases ht'; rw [ht]; unfold eoiTokenType; omega
  · cases ht'
  · cases ht'
    rw [Grammar.isSideType] at hs
    split at hs
    · cases hg : env.g.tokens[t'.type.toNat]? with
      | none => rw [hg] at hs; cases hs
      | some a =>
        have := (List.getElem?_eq_some_iff.mp hg).1
        omega
    · cases hs

/-- Types requested by a lookahead are those of its branches. -/
theorem top_types_cover {g : Grammar} {rc : RC} {o : Traced} (h : RCOk g 0 rc) (hsim : Sim rc [] [] o []) :
    (∀ b ∈ o.next, ∃ z, rc.types = topTypes g (statesOf b.stack) ||| z) ∧ (rc.types ≠ 0 → ∃ b ∈ o.next, b.stack ≠ []) := by
  have htop : ∀ (br : Branch) (top : Frame) (l : List Frame), br ∈ rc.store → br.stack = top :: l → topTypes g (statesOf br.stack) = top.types := by
    intro br top l hb hl
    have hst := (h.store br hb).1
    rw [hl] at hst ⊢
    obtain ⟨n, gs, h2, h3, h4⟩ := hst.top
    have : Go.index g.tables.states (n : Int) = some gs := by simp [Go.index, h3]
    simp [statesOf, topTypes, h2, this, h4]
  have key : ∀ (l : List Nat) (a : TokenTypeSet),
      let r := l.foldl (fun (tts : TokenTypeSet) (b : Nat) =>
        match (rc.store[b]?).bind (·.stack.head?) with
        | some top => tts ||| top.types
        | none => tts) a
      (∃ z, r = a ||| z) ∧ (∀ p ∈ l, ∀ br, rc.store[p]? = some br → ∃ z, r = topTypes g (statesOf br.stack) ||| z) ∧
        (r ≠ a → ∃ p ∈ l, ∃ br, rc.store[p]? = some br ∧ br.stack ≠ []) := by
    intro l
    induction l with
    | nil => intro a; exact ⟨⟨0, by simp⟩, by simp, fun h => absurd rfl h⟩
    | cons p l ih =>
      intro a
      dsimp only
      rw [List.foldl_cons]
      cases hb : (rc.store[p]?).bind (·.stack.head?) with
      | none =>
        obtain ⟨h1, h2, h3⟩ := ih a
        refine ⟨h1, fun q hq br hbr => ?_, fun hne => ?_⟩
        · rcases List.mem_cons.mp hq with rfl | hq
          · rw [hbr, Option.bind_some] at hb
            rw [List.head?_eq_none_iff.mp hb]
            exact ⟨_, by simp only [statesOf, List.map_nil, topTypes]; exact BitVec.zero_or.symm⟩
          · exact h2 q hq br hbr
        · obtain ⟨q, hq, br, h4⟩ := h3 hne
          exact ⟨q, by simp [hq], br, h4⟩
      | some top =>
        obtain ⟨h1, h2, h3⟩ := ih (a ||| top.types)
        obtain ⟨br0, e1, e2⟩ := Option.bind_eq_some_iff.mp hb
        obtain ⟨l', hl'⟩ : ∃ l', br0.stack = top :: l' := by
          cases hs : br0.stack with
          | nil => rw [hs] at e2; cases e2
          | cons x l' => rw [hs] at e2; cases e2; exact ⟨l', rfl⟩
        obtain ⟨z, hz⟩ := h1
        refine ⟨⟨top.types ||| z, by rw [hz, BitVec.or_assoc]⟩, fun q hq br hbr => ?_, fun _ => ?_⟩
        · rcases List.mem_cons.mp hq with rfl | hq
          · rw [hbr] at e1
            cases e1
            rw [htop _ top l' (List.mem_of_getElem? hbr) hl', hz]
            exact ⟨a ||| z, by rw [BitVec.or_comm a, BitVec.or_assoc]⟩
          · exact h2 q hq br hbr
        · exact ⟨p, by simp, br0, e1, by rw [hl']; simp⟩
  obtain ⟨-, h2, h3⟩ := key (rc.cur.take rc.len) 0
  have hnext := hsim.next
  constructor
  · intro b hb
    have : some b ∈ RC.vals rc (rc.cur.take rc.len) := by rw [hnext]; exact List.mem_map_of_mem hb
    obtain ⟨p, hp, hpb⟩ := List.mem_map.mp this
    exact h2 p hp b hpb
  · intro hne
    obtain ⟨p, hp, br, h4, h5⟩ := h3 hne
    have : some br ∈ o.next.map some := by rw [← hnext, ← h4]; exact List.mem_map_of_mem (f := fun p => rc.store[p]?) hp
    obtain ⟨b, hb, hbb⟩ := List.mem_map.mp this
    cases hbb
    exact ⟨br, hb, h5⟩

/-- The token after an ended node. -/
theorem way_after (ha : AheadTables env.g m node next after also) {i0 : Nat} {fr : List Part} {ks : List (Token × Nat)} {T : List Item}
    (hw : Way env.g m fr ks T) (own low : List Part) (hfr : fr = own ++ low) (ho : Own env.g node next after i0 own low)
    (hx : partStates own = []) : after i0 (nextKey ks) := by
  induction hw generalizing own low with
  | @done i st its =>
    obtain ⟨p, rest, e1, e2⟩ := way_next ha.predicts (.done (g := env.g) (m := m) (i := i) (st := st) (its := its)) (by rw [hfr]; exact ho.stacked)
    cases e1
    cases own with
    | nil => exact absurd rfl ho.ne
    | cons p own =>
      simp only [List.cons_append, List.cons.injEq] at hfr
      obtain ⟨rfl, h2⟩ := hfr
      obtain ⟨rfl, rfl⟩ := List.append_eq_nil_iff.mp h2.symm
      have := ho.last ⟨finalState, i, st, its⟩ rfl
      rw [comes, if_pos rfl] at e2
      dsimp only at this e2
      rw [this] at e2
      exact e2
  | @pop i st its q rest ks T hw ih =>
    cases own with
    | nil => exact absurd rfl ho.ne
    | cons p own =>
      cases own with
      | nil =>
        obtain ⟨p', rest', e1, e2⟩ := way_next ha.predicts (.pop hw) (by rw [hfr]; exact ho.stacked)
        cases e1
        simp only [List.cons_append, List.nil_append, List.cons.injEq] at hfr
        obtain ⟨rfl, -⟩ := hfr
        have := ho.last ⟨finalState, i, st, its⟩ rfl
        rw [comes, if_pos rfl] at e2
        dsimp only at this e2
        rw [this] at e2
        exact e2
      | cons q' own =>
        simp only [List.cons_append, List.cons.injEq] at hfr
        obtain ⟨rfl, rfl, rfl⟩ := hfr
        refine ih ({ q with items := q.items ++ [.node i st its] } :: own) low rfl ho.popped ?_
        rw [partStates_final rfl] at hx
        simpa [partStates] using hx
  | skip hr hn hw ih =>
    cases own with
    | nil => exact absurd rfl ho.ne
    | cons p own =>
      simp only [List.cons_append, List.cons.injEq] at hfr
      obtain ⟨rfl, rfl⟩ := hfr
      rw [partStates_nat] at hx; cases hx
  | read hr hn hw ih =>
    cases own with
    | nil => exact absurd rfl ho.ne
    | cons p own =>
      simp only [List.cons_append, List.cons.injEq] at hfr
      obtain ⟨rfl, rfl⟩ := hfr
      rw [partStates_nat] at hx; cases hx
  | push hr hn hf hw ih =>
    cases own with
    | nil => exact absurd rfl ho.ne
    | cons p own =>
      simp only [List.cons_append, List.cons.injEq] at hfr
      obtain ⟨rfl, rfl⟩ := hfr
      rw [partStates_nat] at hx; cases hx

/-- Result of a lookahead: rules of the run. -/
def Foreseen (env : PEnv σ) (P : Option Token → Prop) (m : Table) (node : Nat → Nat) (next after : Nat → Int → Prop) (also : Int → Int → Prop) (Q : σ → List Token → Prop)
    (pc : PC σ) (tok0 : Option Token) (fr : List Part) (T : List Item) (x : PC σ × List (Option Token) × List Rule) : Prop :=
  (∃ src del, x.1 = { pc with src := src, delivered := del }) ∧ x.2.2 ≠ [] ∧ x.2.1.head? = some tok0 ∧ (∀ o ∈ x.2.1, P o) ∧
    ∃ os fr' ks ts, Plan env.g x.2.1 fr x.2.2 os fr' ∧ Way env.g m fr' ks T ∧ Stacked node next after fr' ∧ Ready env m also os ts ks ∧ Q x.1.src ts

theorem statesOf_nil {l : List Frame} : statesOf l = [] ↔ l = [] := by simp [statesOf]

theorem conflictLoop_plan (hs : SettledEnv env m node next after also asks Q P) (fuel : Nat) {s : Nat} {f : Frame} (hfs : f.state = (s : Int))
    {tok0 : Option Token} {rules0 : List Rule} (hfind : findRules env.g env.upper tok0 s = some rules0) (hl0 : 1 < rules0.length) (hP0 : P tok0)
    {pc : PC σ} {tok : Option Token} {ts : List (Option Token)} {rc : RC} {o : Traced} {rs : List Rule} {fr own low : List Part}
    {ks : List (Token × Nat)} {tks : List Token} {T : List Item} (hnil : pc.tokens = []) (h0 : (ts ++ [tok]).head? = some tok0)
    (hts : ∀ t ∈ ts, P t) (htok : P tok) (hsim : Sim rc [] [] o []) (hne : o.next ≠ [])
    (hr : Rounds env.g env.upper ⟨[f], []⟩ ts o.next) (ht : Traces env.g env.upper [(s : Int)] ts o)
    (hrc : RCOk env.g 0 rc) (hl : rc.len ≠ 0) (hq : rc.q = [])
    (hruled : RuledAll rc ∨ ∃ b top l, rc.store = [b] ∧ rc.cur = [0] ∧ b.stack = top :: l ∧
      ∃ r r' rs, findRules env.g env.upper tok top.state = some (r :: r' :: rs))
    (hta : TakesAll env.g env.upper ts [(s : Int)] rs (partStates own)) (hplan : Plan env.g ts fr rs [] (own ++ low))
    (hw : Way env.g m (own ++ low) ks T) (ho : Own env.g node next after (node s) own low)
    (hat : AtHand env m also tok (partStates own) ks tks) (hQ : Q pc.src tks) :
    Fine (Foreseen env P m node next after also Q pc tok0 fr T) (conflictLoop env fuel pc tok ts rc) := by
  induction fuel generalizing pc tok ts rc o rs own ks tks with
  | zero => rw [conflictLoop]; trivial
  | succ fuel ih =>
    rw [conflictLoop]
    refine Fine.bind (Fine.and (round_fine hs.ahead.sound (atHand_ok hat) fuel hrc hl hq hruled) fun rc1 h => h) ?_
    rintro rc1 ⟨⟨hrc1, hch, hru1, hq1⟩, h1⟩
    have hfit : Spec.Fits env.g env.upper tok fuel 0 o.next { dead := o.dead } := by
      cases ts with
      | nil =>
        generalize hts : ([] : List (Option Token)) = ts at hr
        generalize hL : o.next = L at hr
        cases hr with
        | nil => exact ⟨by simp, fun _ _ => trivial⟩
        | step _ _ => simp at hts
      | cons t ts =>
        have : t = tok0 := by simpa using h0
        subst this
        exact hs.safe f t rules0 hP0 (by rw [hfs]; exact hfind) hl0 ts o.next (fun t ht => hts t (by simp [ht])) hr tok o.dead fuel htok
    obtain ⟨o1, h2, hsim1⟩ := round_sim hsim hfit h1
    obtain ⟨ht1, hlf, hl2, -⟩ := traces_step ht h2
    have hts1 : ∀ t ∈ ts ++ [tok], P t := by
      intro t ht
      rcases List.mem_append.mp ht with ht | ht
      · exact hts t ht
      · rw [List.mem_singleton.mp ht]; exact htok
    have hconf : InConflict env.g env.upper s (ts ++ [tok]) := ⟨tok0, rules0, h0, hfind, hl0⟩
    obtain ⟨rules, h5, h6, -⟩ := chosen_fine hrc1 hch hru1
    obtain ⟨b, hb, hbo⟩ := chosen_sim hsim1 h5
    dsimp only
    rw [h5]
    simp only [orPanic]
    rcases atHand_step hs.ahead rfl hat hw ho with ⟨ks1, ⟨ra, own1, htk, hpl, hw1, ho1⟩, hk1⟩ | ⟨t, rfl, ⟨ra, fr', hlv, hpl, hw1, hst1, -⟩, hmay, hready⟩
    · -- the run goes on inside the node
      have hta1 := takesAll_snoc hta htk
      have hplan1 : Plan env.g (ts ++ [tok]) fr (rs ++ ra) [] (own1 ++ low) := (hplan.more [tok]).trans hpl
      obtain ⟨mine, hmine, hmr, hms⟩ := ht1.complete _ _ hta1
      have hhead : o1.next.head? = some b := by
        rcases hbo with h | ⟨h, -⟩ | ⟨h, -⟩
        · exact h
        · rw [h] at hmine; cases hmine
        · rw [h] at hmine; cases hmine
      have hbm : b ∈ o1.next := List.mem_of_mem_head? hhead
      obtain ⟨hcov, hsome⟩ := top_types_cover hrc1 hsim1
      have hfin : rules = rs ++ ra → ∀ (src : σ) (del : List (Option Token)), Q src tks →
          Foreseen env P m node next after also Q pc tok0 fr T ({ pc with src := src, delivered := del }, ts ++ [tok], rules) := by
        intro he src del hqs
        refine ⟨⟨_, _, rfl⟩, h6, h0, hts1, [], own1 ++ low, ks1, tks, ?_, hw1, ho1.stacked, .inl ⟨rfl, hk1⟩, hqs⟩
        rw [he]; exact hplan1
      split
      · rename_i hlen
        have hle : o1.next.length ≤ 1 := by rw [sim_len hsim1]; exact hlen
        have : b = mine := by
          match hn : o1.next, hbm, hmine, hle with
          | [a], hx, hy, _ =>
            rw [hn] at hbm hmine
            rw [List.mem_singleton.mp hbm, List.mem_singleton.mp hmine]
        subst this
        exact hfin (hb.symm.trans hmr) _ _ hQ
      · rename_i hlen
        split
        · rename_i hz
          refine hfin ?_ _ _ hQ
          by_contra hne
          rw [← hb] at hne
          have hreq := hs.settles.request s _ _ _ _ _ hconf hts1 (ht1.sound b hbm) hta1 hne
          obtain ⟨z1, hz1⟩ := hcov b hbm
          obtain ⟨z2, hz2⟩ := hcov mine hmine
          rw [hms] at hz2
          have e1 : topTypes env.g (statesOf b.stack) = 0 := (BitVec.or_eq_zero_iff.mp (hz1.symm.trans hz)).1
          have e2 : topTypes env.g (partStates own1) = 0 := (BitVec.or_eq_zero_iff.mp (hz2.symm.trans hz)).1
          rw [e1, e2] at hreq
          exact hreq (by simp)
        · rename_i hz
          rw [nextToken_direct hnil]
          refine Fine.bind (Fine.and (fetch_fine hs.supplies rc1.types hk1 fuel pc hQ) fun r h => h) ?_
          rintro ⟨pc1, r⟩ ⟨⟨src, tok1, ts', he, hq2, hfe⟩, hload⟩
          cases he
          dsimp only
          have hP1 := nextLoop_gives hs.gives hs.supplies fuel hQ hload
          obtain ⟨y, hy, hyne⟩ := hsome hz
          obtain ⟨y0, y1, hys⟩ : ∃ y0 y1, statesOf y.stack = y0 :: y1 := by
            cases h : statesOf y.stack with
            | nil => exact absurd (statesOf_nil.mp h) hyne
            | cons a l => exact ⟨a, l, rfl⟩
          have hyta := ht1.sound y hy
          rw [hys] at hyta
          obtain ⟨zy, hzy⟩ := hcov y hy
          rw [hys] at hzy
          -- the variant of the run has not ended
          have hopen : partStates own1 = [] → (∀ t, P (some t) → MayCome env.g env.upper env.passSides after (node s) t → Wanted asks rc1.types t) ∧
              (after (node s) eoiTokenType → asks rc1.types) := by
            intro he
            rw [he] at hta1
            obtain ⟨ha1, ha2⟩ := hs.settles.asked s _ _ _ _ _ hconf hts1 hta1 hyta
            rw [hzy]
            refine ⟨fun t hp hm => ?_, fun h => hs.mono _ _ (ha2 h)⟩
            have := ha1 t hp hm
            unfold Wanted at this ⊢
            split
            · rename_i hlt; rw [if_pos hlt] at this; exact hs.mono _ _ this
            · rename_i hlt; rw [if_neg hlt] at this; exact or_bit this
          have hyok : ∃ (n : Nat) (gs : GState), y0 = n ∧ env.g.tables.states[n]? = some gs ∧ topTypes env.g (y0 :: y1) = gs.types := by
            have hmem : y ∈ rc1.store := by
              have : some y ∈ RC.vals rc1 (rc1.cur.take rc1.len) := by rw [hsim1.next]; exact List.mem_map_of_mem hy
              obtain ⟨p, -, hp⟩ := List.mem_map.mp this
              exact List.mem_of_getElem? hp
            have hst := (hrc1.store y hmem).1
            cases hstk : y.stack with
            | nil => exact absurd hstk hyne
            | cons fy ly =>
              rw [hstk] at hst hys
              obtain ⟨n, gs, e1, e2, e3⟩ := hst.top
              simp only [statesOf, List.map_cons, List.cons.injEq] at hys
              refine ⟨n, gs, hys.1.symm.trans e1, e2, ?_⟩
              have : Go.index env.g.tables.states (n : Int) = some gs := by simp [Go.index, e2]
              simp [topTypes, ← hys.1, e1, this]
          have hafter : partStates own1 = [] → after (node s) (nextKey ks1) := by
            intro he
            exact way_after hs.ahead hw1 own1 low rfl ho1 he
          have hmineTop : ∀ (s' : Nat) x', partStates own1 = (s' : Int) :: x' → ∃ gs z, env.g.tables.states[s']? = some gs ∧ rc1.types = gs.types ||| z := by
            intro s' x' he
            obtain ⟨z2, hz2⟩ := hcov mine hmine
            rw [hms, he] at hz2
            have hmem : (s' : Int) ∈ own1.map (·.state) := by
              have : (s' : Int) ∈ partStates own1 := by rw [he]; simp
              exact (List.dropWhile_suffix _).subset this
            obtain ⟨p, hp, hps⟩ := List.mem_map.mp hmem
            rcases ho1.placed p hp with e1 | ⟨n, gs, e1, e2⟩
            · rw [hps] at e1; simp only [finalState] at e1; omega
            · have : n = s' := by rw [hps] at e1; omega
              subst this
              have : Go.index env.g.tables.states (n : Int) = some gs := by simp [Go.index, e2]
              refine ⟨gs, z2, e2, ?_⟩
              rw [hz2]
              simp [topTypes, this]
          have hat1 : AtHand env m also tok1 (partStates own1) ks1 ts' := by
            rcases hfe with ⟨t, rfl, e1, e2, e3⟩ | ⟨t, k, ks', rfl, rfl, e1, e2⟩ | ⟨rfl, e1, e2⟩ | ⟨t, rfl, e1, rfl, rfl⟩
            · refine .inr (.inr (.inr ⟨t, rfl, e1, e3, fun he => ?_⟩))
              obtain ⟨n, gs, rfl, hgs, -⟩ := hyok
              rw [he] at hta1
              have := (hs.settles.leave s _ t _ _ _ _ (by
                obtain ⟨a, b, c, d⟩ := hconf
                exact ⟨a, b, by rw [List.head?_append, c]; rfl, d⟩) (by
                intro o ho
                rcases List.mem_append.mp ho with ho | ho
                · exact hts1 o ho
                · rw [List.mem_singleton.mp ho]; exact hP1) hta1 hyta (.inr (.inr ⟨e2, e1⟩)) [] .now).1
              exact this _ _ (side_taken e1 hgs y1)
            · exact .inl ⟨t, k, ks', rfl, rfl, e1, e2⟩
            · refine .inr (.inr (.inl ⟨rfl, e1, fun he => ?_, ?_⟩))
              · have haf := hafter he
                obtain ⟨hwant, hend⟩ := hopen he
                obtain ⟨n, gs, -, hgs, hty⟩ := hyok
                -- something that may come is among the tokens
                have hask : asks rc1.types := by
                  have key : ∀ {ts : List Token} {ks : List (Token × Nat)}, (∀ t ∈ ts, 0 ≤ t.type → env.g.isSideType t.type = false → P (some t)) →
                      (∀ t ∈ ts, 0 ≤ t.type → rc1.types.getLsbD t.type.toNat = true → asks rc1.types) →
                      Keys env m also ts ks → after (node s) (nextKey ks) → asks rc1.types := by
                    intro ts ks hstr hask hk
                    induction hk with
                    | nil => exact hend
                    | side _ _ ih => exact fun haf => ih (fun t ht => hstr t (by simp [ht])) (fun t ht => hask t (by simp [ht])) haf
                    | @tok t k _ _ hR _ _ =>
                      intro haf
                      obtain ⟨hn, hn'⟩ := readable_ordinary hR
                      have := hwant t (hstr t (by simp) hn hn') (.inl ⟨k, haf, hR.meant⟩)
                      rw [Wanted, if_neg (by omega)] at this
                      exact hask t (by simp) hn this
                  exact key (fun t ht => hs.stream _ _ hq2 t ht) (fun t ht => hs.supplies.asked _ _ _ hq2 t ht) e1 haf
                have hstr := hs.stream _ _ hq2
                cases e1 with
                | nil => exact e2 hask
                | @side t1 ts2 _ hp hk2 =>
                  apply e2
                  rcases hp with hp | ⟨hp1, hp2, hp3⟩
                  · rw [Wanted, if_pos (by rw [hp]; decide)]; exact hask
                  · have h0 : 0 ≤ t1.type := by
                      by_contra hc
                      rw [Grammar.isSideType, if_neg hc] at hp1; cases hp1
                    rw [Wanted, if_neg (by omega), hzy, hty]
                    exact or_bit (hp3 n gs hgs)
                | @tok t k _ _ hR _ =>
                  obtain ⟨hn, hn'⟩ := readable_ordinary hR
                  exact e2 (hwant t (hstr t (by simp) hn hn') (.inl ⟨k, haf, hR.meant⟩))
              · intro s' x' t k ks' e3 e4
                obtain ⟨gs, z, e5, e6⟩ := hmineTop s' x' e3
                rw [e4] at e1
                exact fetched_unwanted hs.supplies hq2 e5 e6 e1 e2
            · exact .inr (.inl ⟨t, rfl, e1, rfl, rfl⟩)
          have hih := ih (pc := { pc with src := src, delivered := pc.delivered ++ [tok1] }) hnil
            (by rw [List.head?_append, h0]; rfl) hts1 hP1 hsim1 (List.ne_nil_of_mem hbm) (.step hr h2) ht1 hrc1 (by omega) hq1 (.inl hru1)
            hta1 hplan1 hw1 ho1 hat1 hq2
          refine Fine.mono hih ?_
          rintro x ⟨⟨src', del', e1⟩, e2⟩
          exact ⟨⟨src', del', e1⟩, e2⟩
    · -- the run leaves the node
      obtain ⟨hno, huniq⟩ : (∀ rs' y, TakesAll env.g env.upper ts [(s : Int)] rs' y → ∀ rb y', ¬ Takes env.g env.upper (some t) y rb y') ∧
          ∀ rs' y, TakesAll env.g env.upper ts [(s : Int)] rs' y → ∀ rb, Leaves env.g env.upper (some t) y rb → rs' ++ rb = rs ++ ra :=
        ⟨fun rs' y hy => (hs.settles.leave s ts t _ _ _ _ hconf hts1 hta hy hmay ra hlv).1,
          fun rs' y hy => (hs.settles.leave s ts t _ _ _ _ hconf hts1 hta hy hmay ra hlv).2⟩
      have hnext : o1.next = [] := by
        cases hn : o1.next with
        | nil => rfl
        | cons y l =>
          obtain ⟨rs1, st1, rs2, e1, e2, -⟩ := takesAll_split (ht1.sound y (by rw [hn]; simp))
          exact absurd e2 (hno _ _ e1 _ _)
      obtain ⟨x, hx, -⟩ := hl2 _ _ _ hta hlv
      have hrules : rules = rs ++ ra := by
        rcases hbo with h | ⟨-, h⟩ | ⟨-, h, -⟩
        · rw [hnext] at h; cases h
        · obtain ⟨rs1, st, rs2, e1, e2, e3⟩ := hlf b (List.mem_of_mem_getLast? h)
          rw [← hb, e3]
          exact huniq _ _ e1 _ e2
        · rw [h] at hx; cases hx
      have hlen : rc1.len ≤ 1 := by rw [← sim_len hsim1, hnext]; simp
      rw [if_pos hlen]
      refine ⟨⟨pc.src, pc.delivered, rfl⟩, h6, h0, hts1, [some t], fr', ks, tks, ?_, hw1, hst1, hready, hQ⟩
      rw [hrules]
      exact (hplan.more [some t]).trans hpl

end Verif.Proof
