/-
A run of the node machines as a variant traced by the lookahead.
-/
import Verif.Spec.ManyTokens
import Verif.Proof.NoPanic
import Verif.Proof.Variants

namespace Verif.Proof

open Verif.Model Verif.Spec Verif.Props

/-- Rules to apply to open nodes: tokens at hand before and after, open nodes before and after. -/
inductive Plan (g : Grammar) : List (Option Token) → List Part → List Rule → List (Option Token) → List Part → Prop
  | nil {os fr} : Plan g os fr [] os fr
  | pop {os : List (Option Token)} {i : Nat} {st : Option Token} {its : List Item} {q : Part} {rest : List Part} {rs : List Rule}
      {os' : List (Option Token)} {fr' : List Part} : Plan g os ({ q with items := q.items ++ [.node i st its] } :: rest) rs os' fr' →
      Plan g os (⟨finalState, i, st, its⟩ :: q :: rest) rs os' fr'
  | use {o : Option Token} {os : List (Option Token)} {s i : Nat} {st : Option Token} {its : List Item} {rest : List Part} {r : Rule} {rs : List Rule}
      {first : Nat} {os' : List (Option Token)} {fr' : List Part} : GoodRule g r → (0 ≤ r.node → g.firsts[r.node.toNat]? = some first) →
      consumes r o = true → Plan g os (grown g o r first (⟨(s : Int), i, st, its⟩ :: rest)) rs os' fr' →
      Plan g (o :: os) (⟨(s : Int), i, st, its⟩ :: rest) (r :: rs) os' fr'
  | go {o : Option Token} {os : List (Option Token)} {s i : Nat} {st : Option Token} {its : List Item} {rest : List Part} {r : Rule} {rs : List Rule}
      {first : Nat} {os' : List (Option Token)} {fr' : List Part} : GoodRule g r → (0 ≤ r.node → g.firsts[r.node.toNat]? = some first) →
      consumes r o = false → Plan g (o :: os) (grown g o r first (⟨(s : Int), i, st, its⟩ :: rest)) rs os' fr' →
      Plan g (o :: os) (⟨(s : Int), i, st, its⟩ :: rest) (r :: rs) os' fr'

section

variable {g : Grammar}

theorem Plan.more {os os' : List (Option Token)} {fr fr' : List Part} {rs : List Rule} (h : Plan g os fr rs os' fr') (l : List (Option Token)) :
    Plan g (os ++ l) fr rs (os' ++ l) fr' := by
  induction h with
  | nil => exact .nil
  | pop _ ih => exact .pop ih
  | use h1 h2 h3 _ ih => exact .use h1 h2 h3 ih
  | go h1 h2 h3 _ ih => exact .go h1 h2 h3 ih

theorem Plan.trans {os os' os'' : List (Option Token)} {fr fr' fr'' : List Part} {rs rs' : List Rule} (h : Plan g os fr rs os' fr')
    (h' : Plan g os' fr' rs' os'' fr'') : Plan g os fr (rs ++ rs') os'' fr'' := by
  induction h with
  | nil => exact h'
  | pop _ ih => exact .pop (ih h')
  | use h1 h2 h3 _ ih => exact .use h1 h2 h3 (ih h')
  | go h1 h2 h3 _ ih => exact .go h1 h2 h3 (ih h')

/-- The next rule of a plan. -/
theorem Plan.step {os os' : List (Option Token)} {fr fr' : List Part} {r : Rule} {rs : List Rule} (h : Plan g os fr (r :: rs) os' fr') :
    ∃ (o : Option Token) (os1 : List (Option Token)) (s i : Nat) (st : Option Token) (its : List Item) (rest : List Part) (first : Nat),
      os = o :: os1 ∧ shut [] fr = shut [] (⟨(s : Int), i, st, its⟩ :: rest) ∧ GoodRule g r ∧ (0 ≤ r.node → g.firsts[r.node.toNat]? = some first) ∧
      ((consumes r o = true ∧ Plan g os1 (grown g o r first (⟨(s : Int), i, st, its⟩ :: rest)) rs os' fr') ∨
       (consumes r o = false ∧ Plan g os (grown g o r first (⟨(s : Int), i, st, its⟩ :: rest)) rs os' fr')) := by
  generalize hl : r :: rs = l at h
  induction h with
  | nil => cases hl
  | pop _ ih =>
    obtain ⟨o, os1, s, i, st, its, rest, first, h1, h2, h3⟩ := ih hl
    exact ⟨o, os1, s, i, st, its, rest, first, h1, by rw [shut_closed rfl]; exact h2, h3⟩
  | use h1 h2 h3 h4 _ =>
    cases hl
    exact ⟨_, _, _, _, _, _, _, _, rfl, rfl, h1, h2, .inl ⟨h3, h4⟩⟩
  | go h1 h2 h3 h4 _ =>
    cases hl
    exact ⟨_, _, _, _, _, _, _, _, rfl, rfl, h1, h2, .inr ⟨h3, h4⟩⟩

/-- Nothing but ended nodes is left. -/
theorem Plan.rest {os os' : List (Option Token)} {fr fr' : List Part} (h : Plan g os fr [] os' fr') :
    os' = os ∧ shut [] fr = shut [] fr' ∧ ∀ {m ks T}, Way g m fr' ks T → Way g m fr ks T := by
  generalize hl : ([] : List Rule) = l at h
  induction h with
  | nil => exact ⟨rfl, rfl, fun h => h⟩
  | pop _ ih =>
    obtain ⟨h1, h2, h3⟩ := ih hl
    exact ⟨h1, by rw [shut_closed rfl]; exact h2, fun h => .pop (h3 h)⟩
  | use => cases hl
  | go => cases hl

theorem Plan.none {os' : List (Option Token)} {fr fr' : List Part} {rs : List Rule} (h : Plan g [] fr rs os' fr') : rs = [] := by
  cases rs with
  | nil => rfl
  | cons r rs =>
    obtain ⟨o, os1, s, i, st, its, rest, first, h1, -⟩ := h.step
    cases h1

end

/-- The token at hand is the next one, or it is the end of input when there are no more tokens. -/
def Current (g : Grammar) (upper : List Nat → List Nat) (m : Table) (also : Int → Int → Prop) (t : Token) (ks : List (Token × Nat)) : Prop :=
  (∃ k ks1, ks = (t, k) :: ks1 ∧ Readable g upper m also t k) ∨ (ks = [] ∧ t.type = eoiTokenType)

/-- What is needed to follow a run with lookahead. -/
structure AheadTables (g : Grammar) (m : Table) (node : Nat → Nat) (next after : Nat → Int → Prop) (also : Int → Int → Prop) : Prop where
  sound : SoundTables g m
  distinct : DistinctLiterals g
  keys : ∀ (s : Nat) (k : Int), m s k ≠ [] → 0 ≤ k ∨ k = anyToken
  predicts : Predicts g m node next after
  many : ManyTokens g m node next after also

/-- States of open nodes without ended ones on the top. -/
def partStates (own : List Part) : List Int := (own.map (·.state)).dropWhile (· = -1)

/-- Open nodes from node `i` up. -/
structure Own (g : Grammar) (node : Nat → Nat) (next after : Nat → Int → Prop) (i : Nat) (own low : List Part) : Prop where
  ne : own ≠ []
  placed : ∀ p ∈ own, p.state = finalState ∨ ∃ (n : Nat) (gs : GState), p.state = n ∧ g.tables.states[n]? = some gs
  last : ∀ p, own.getLast? = some p → p.index = i
  stacked : Stacked node next after (own ++ low)

section

variable {g : Grammar} {upper : List Nat → List Nat} {m : Table} {node : Nat → Nat} {next after : Nat → Int → Prop} {also : Int → Int → Prop} {i0 : Nat}

theorem Own.moved (ha : AheadTables g m node next after also) {s i : Nat} {st : Option Token} {its its' : List Item} {own low : List Part} {k : Int} {r : Rule}
    (hr : r ∈ m s k) (h : Own g node next after i0 (⟨(s : Int), i, st, its⟩ :: own) low) :
    Own g node next after i0 (⟨r.state, i, st, its'⟩ :: own) low := by
  refine ⟨by simp, fun p hp => ?_, fun p hp => ?_, Stacked.moved ha.predicts hr h.stacked⟩
  · rcases List.mem_cons.mp hp with rfl | hp
    · exact ha.sound.closed.1 s k r hr
    · exact h.placed p (by simp [hp])
  · cases own with
    | nil => cases hp; exact h.last ⟨(s : Int), i, st, its⟩ rfl
    | cons q own => exact h.last p (by simpa using hp)

theorem Own.pushed (ha : AheadTables g m node next after also) {s i : Nat} {st : Option Token} {its : List Item} {own low : List Part} {k : Int} {r : Rule}
    {n f : Nat} {st' : Option Token} (hr : r ∈ m s k) (hn : r.node = n) (hf : g.firsts[n]? = some f)
    (h : Own g node next after i0 (⟨(s : Int), i, st, its⟩ :: own) low) :
    Own g node next after i0 (⟨(f : Int), n, st', []⟩ :: ⟨r.state, i, st, its⟩ :: own) low := by
  have h1 := h.moved ha hr (its' := its)
  refine ⟨by simp, fun p hp => ?_, fun p hp => ?_, Stacked.pushed ha.predicts hr hn hf h.stacked⟩
  · rcases List.mem_cons.mp hp with rfl | hp
    · obtain ⟨gs, hgs⟩ := ha.sound.closed.2 n f hf
      exact .inr ⟨f, gs, rfl, hgs⟩
    · exact h1.placed p hp
  · exact h1.last p (by simpa using hp)

theorem Own.popped {p q : Part} {its : List Item} {own low : List Part} (h : Own g node next after i0 (p :: q :: own) low) :
    Own g node next after i0 ({ q with items := its } :: own) low := by
  refine ⟨by simp, fun p' hp => ?_, fun p' hp => ?_, ?_⟩
  · rcases List.mem_cons.mp hp with rfl | hp
    · exact h.placed q (by simp)
    · exact h.placed p' (by simp [hp])
  · cases own with
    | nil => cases hp; exact h.last q rfl
    | cons q' own => exact h.last p' (by simpa using hp)
  · exact h.stacked.2.2

theorem Own.top {s i : Nat} {st : Option Token} {its : List Item} {own low : List Part} (h : Own g node next after i0 (⟨(s : Int), i, st, its⟩ :: own) low) :
    ∃ gs, g.tables.states[s]? = some gs := by
  rcases h.placed ⟨(s : Int), i, st, its⟩ (by simp) with h1 | ⟨n, gs, h1, h2⟩
  · simp only [finalState] at h1; omega
  · have : n = s := by simpa using h1.symm
    subst this
    exact ⟨gs, h2⟩

theorem partStates_nat {s i : Nat} {st : Option Token} {its : List Item} {own : List Part} :
    partStates (⟨(s : Int), i, st, its⟩ :: own) = (s : Int) :: own.map (·.state) := by
  simp only [partStates, List.map_cons]
  rw [List.dropWhile_cons_of_neg]
  simp only [decide_eq_true_eq]; omega

theorem partStates_final {p : Part} {own : List Part} (h : p.state = finalState) : partStates (p :: own) = partStates own := by
  simp only [partStates, List.map_cons]
  rw [List.dropWhile_cons_of_pos]
  simpa [finalState] using h

/-- A rule that stays in the node. -/
theorem move_same (ha : AheadTables g m node next after also) {s i : Nat} {st : Option Token} {its its' : List Item} {own : List Part} {k : Int} {r : Rule}
    {tok : Option Token} {rules : List Rule} (hr : r ∈ m s k) (hn : r.node = sameNode) (hfind : findRules g upper tok s = some rules) (hmem : r ∈ rules) :
    Move g upper tok (partStates (⟨(s : Int), i, st, its⟩ :: own)) r (partStates (⟨r.state, i, st, its'⟩ :: own)) (consumes r tok) := by
  rw [partStates_nat]
  refine ⟨_, _, rules, [Spec.after r s], rfl, hfind, hmem, .inl ⟨hn, rfl⟩, ?_, consumes_spec r tok⟩
  rw [after_closed ha.sound.closed hr]
  rfl

/-- A rule that opens a node. -/
theorem move_push (ha : AheadTables g m node next after also) {s i : Nat} {st : Option Token} {its : List Item} {own : List Part} {k : Int} {r : Rule}
    {n f : Nat} {st' : Option Token} {tok : Option Token} {rules : List Rule} (hr : r ∈ m s k) (hn : r.node = n) (hf : g.firsts[n]? = some f)
    (hfind : findRules g upper tok s = some rules) (hmem : r ∈ rules) :
    Move g upper tok (partStates (⟨(s : Int), i, st, its⟩ :: own)) r (partStates (⟨(f : Int), n, st', []⟩ :: ⟨r.state, i, st, its⟩ :: own)) (consumes r tok) := by
  rw [partStates_nat]
  refine ⟨_, _, rules, [(f : Int), Spec.after r s], rfl, hfind, hmem, .inr ⟨n, f, hn, hf, rfl⟩, ?_, consumes_spec r tok⟩
  rw [after_closed ha.sound.closed hr]
  rfl

theorem takes_of {tok : Option Token} {x x1 : List Int} {r : Rule} {c : Bool} (h : Move g upper tok x r x1 c) (hc : c = true) : Takes g upper tok x [r] x1 := by
  subst hc; exact .use h

theorem grown_skip (ha : AheadTables g m node next after also) {s i : Nat} {st : Option Token} {its : List Item} {rest : List Part} {r : Rule}
    (hr : r ∈ m s anyToken) (hn : r.node = sameNode) (tok : Option Token) :
    grown g tok r 0 (⟨(s : Int), i, st, its⟩ :: rest) = ⟨r.state, i, st, its⟩ :: rest := by
  have hrt : r.token = anyToken := ha.sound.means.token _ _ _ hr
  cases tok <;> simp [grown, hn, hrt, after_closed ha.sound.closed hr]

theorem grown_read (ha : AheadTables g m node next after also) {s i k : Nat} {st : Option Token} {its : List Item} {rest : List Part} {r : Rule}
    (hr : r ∈ m s k) (hn : r.node = sameNode) {t : Token} (ht : g.isSideType t.type = false) :
    grown g (some t) r 0 (⟨(s : Int), i, st, its⟩ :: rest) = ⟨r.state, i, st, its ++ [.tok t]⟩ :: rest := by
  have hrt : r.token = k := ha.sound.means.token _ _ _ hr
  have : (k : Int) ≠ anyToken := by unfold anyToken; omega
  simp [grown, hn, hrt, after_closed ha.sound.closed hr, ht, this]

theorem grown_push (ha : AheadTables g m node next after also) {s i : Nat} {k : Int} {st : Option Token} {its : List Item} {rest : List Part} {r : Rule}
    {n f : Nat} (hr : r ∈ m s k) (hn : r.node = n) (tok : Option Token) :
    grown g tok r f (⟨(s : Int), i, st, its⟩ :: rest) = ⟨(f : Int), n, tok, []⟩ :: ⟨r.state, i, st, its⟩ :: rest := by
  have : (n : Int) ≠ sameNode := by unfold sameNode; omega
  simp [grown, hn, after_closed ha.sound.closed hr, this]

/-- The only rule for a token that is skipped. -/
theorem find_skip (ha : AheadTables g m node next after also) {s : Nat} {i : Nat} {r : Rule} {t : Token} {ks : List (Token × Nat)} {st : Option Token}
    {its : List Item} {rest : List Part} {T : List Item} (hr : r ∈ m s anyToken) (hnode : node s = i) (hs : s < g.tables.states.length)
    (hw : Way g m (⟨r.state, i, st, its⟩ :: rest) ks T) (hst : Stacked node next after (⟨r.state, i, st, its⟩ :: rest))
    (hc : Current g upper m also t ks) : findRules g upper (some t) s = some [r] := by
  have hany : m s anyToken = [r] := single_of (ha.many.rest s) hr
  rcases hc with ⟨k, ks1, rfl, hR⟩ | ⟨rfl, ht⟩
  · obtain ⟨p, rest', hk', hcome⟩ := way_next ha.predicts hw hst
    cases hk'
    dsimp only at hcome
    rw [← hnode] at hcome
    obtain ⟨h3, h4⟩ := ha.many.skip s r hr k hcome
    rw [findRules_skips ha.sound.means ha.distinct hR hs h3 h4, hany]
  · rw [findRules_eoiKey ha.sound.means ha.distinct ht hs, hany]
    by_contra hne
    rcases ha.keys s _ hne with h | h
    · exact absurd h (by decide)
    · exact absurd h (by decide)

theorem find_key (ha : AheadTables g m node next after also) {s k : Nat} {r : Rule} {t : Token} (hr : r ∈ m s k) (hs : s < g.tables.states.length)
    (hR : Readable g upper m also t k) : findRules g upper (some t) s = some (m s k) :=
  findRules_takes ha.sound.means ha.distinct hR hs (List.ne_nil_of_mem hr)
    (fun k' h7 h8 => ha.many.literal s k k' (List.ne_nil_of_mem hr) h7 h8)

theorem consumes_skip (ha : AheadTables g m node next after also) {s : Nat} {r : Rule} (hr : r ∈ m s anyToken) (t : Token) : consumes r (some t) = false := by
  have hrt : r.token = anyToken := ha.sound.means.token _ _ _ hr
  simp [consumes, hrt]

theorem consumes_read (ha : AheadTables g m node next after also) {s k : Nat} {r : Rule} (hr : r ∈ m s k) (hn : r.node = sameNode) (tok : Option Token) :
    consumes r tok = true := by
  have hrt : r.token = k := ha.sound.means.token _ _ _ hr
  simp only [consumes, decide_eq_true_eq]
  exact .inl ⟨hn, by rw [hrt]; unfold anyToken; omega⟩

theorem consumes_push {r : Rule} {n : Nat} (hn : r.node = n) (t : Token) : consumes r (some t) = false := by
  simp only [consumes, decide_eq_false_iff_not, hn, reduceCtorEq, or_false, not_and]
  intro h; unfold sameNode at h; omega

/-- The run uses the token at hand inside node `i0`. -/
def UsesIt (g : Grammar) (upper : List Nat → List Nat) (m : Table) (node : Nat → Nat) (next after : Nat → Int → Prop) (i0 : Nat) (tok : Option Token)
    (own low : List Part) (ks1 : List (Token × Nat)) (T : List Item) : Prop :=
  ∃ rs own', Takes g upper tok (partStates own) rs (partStates own') ∧ Plan g [tok] (own ++ low) rs [] (own' ++ low) ∧
    Way g m (own' ++ low) ks1 T ∧ Own g node next after i0 own' low

/-- The run leaves node `i0` before the token at hand. -/
def GoesOut (g : Grammar) (upper : List Nat → List Nat) (m : Table) (node : Nat → Nat) (next after : Nat → Int → Prop) (i0 : Nat) (t : Token)
    (own low : List Part) (ks : List (Token × Nat)) (T : List Item) : Prop :=
  ∃ rs fr', Leaves g upper (some t) (partStates own) rs ∧ Plan g [some t] (own ++ low) rs [some t] fr' ∧ Way g m fr' ks T ∧
    Stacked node next after fr' ∧ after i0 (nextKey ks)

theorem way_token (ha : AheadTables g m node next after also) {fr : List Part} {ks : List (Token × Nat)} {T : List Item} (h : Way g m fr ks T) :
    ∀ own low, fr = own ++ low → Own g node next after i0 own low → ∀ t, Current g upper m also t ks →
      (∃ k ks1, ks = (t, k) :: ks1 ∧ UsesIt g upper m node next after i0 (some t) own low ks1 T) ∨
      GoesOut g upper m node next after i0 t own low ks T := by
  have hout : ∀ {p : Part} {low : List Part} {ks : List (Token × Nat)} {T : List Item} {t : Token}, p.state = finalState →
      Way g m ([p] ++ low) ks T → Own g node next after i0 [p] low → GoesOut g upper m node next after i0 t [p] low ks T := by
    intro p low ks T t hp hw ho
    refine ⟨[], [p] ++ low, ?_, .nil, hw, ho.stacked, ?_⟩
    · rw [partStates_final hp]; exact .now
    · obtain ⟨p', rest', h1, h2⟩ := way_next ha.predicts hw ho.stacked
      cases h1
      rw [comes, if_pos hp, ho.last p rfl] at h2
      exact h2
  induction h with
  | @done i st its =>
    intro own low hfr ho t hc
    cases own with
    | nil => exact absurd rfl ho.ne
    | cons p own =>
      simp only [List.cons_append, List.cons.injEq] at hfr
      obtain ⟨rfl, h2⟩ := hfr
      obtain ⟨rfl, rfl⟩ := List.append_eq_nil_iff.mp h2.symm
      exact .inr (hout rfl .done ho)
  | @pop i st its q rest ks T hw ih =>
    intro own low hfr ho t hc
    cases own with
    | nil => exact absurd rfl ho.ne
    | cons p own =>
      simp only [List.cons_append, List.cons.injEq] at hfr
      obtain ⟨rfl, h2⟩ := hfr
      cases own with
      | nil =>
        dsimp only [List.nil_append] at h2
        subst h2
        exact .inr (hout rfl (.pop hw) ho)
      | cons q' own =>
        simp only [List.cons_append, List.cons.injEq] at h2
        obtain ⟨rfl, rfl⟩ := h2
        have hp : partStates (⟨finalState, i, st, its⟩ :: q :: own) = partStates ({ q with items := q.items ++ [.node i st its] } :: own) := by
          rw [partStates_final rfl]; rfl
        rcases ih ({ q with items := q.items ++ [.node i st its] } :: own) low rfl ho.popped t hc with
          ⟨k, ks1, h3, rs, own', h4, h5, h6, h7⟩ | ⟨rs, fr', h4, h5, h6, h7, h8⟩
        · exact .inl ⟨k, ks1, h3, rs, own', by rw [hp]; exact h4, .pop h5, h6, h7⟩
        · exact .inr ⟨rs, fr', by rw [hp]; exact h4, .pop h5, h6, h7, h8⟩
  | @skip s r i st its rest ks T hr hn hw ih =>
    intro own low hfr ho t hc
    cases own with
    | nil => exact absurd rfl ho.ne
    | cons p own =>
      simp only [List.cons_append, List.cons.injEq] at hfr
      obtain ⟨rfl, rfl⟩ := hfr
      obtain ⟨gs, hgs⟩ := ho.top
      have hs := (List.getElem?_eq_some_iff.mp hgs).1
      have ho1 := ho.moved ha hr (its' := its)
      have hfind := find_skip ha (upper := upper) hr (ho.stacked.1 s rfl) hs hw ho1.stacked hc
      have hm := move_same ha (st := st) (its := its) (its' := its) (own := own) (i := i) hr hn hfind (List.mem_singleton.mpr rfl)
      rw [consumes_skip ha hr] at hm
      have hplan : ∀ {rs os' fr'}, Plan g [some t] (⟨r.state, i, st, its⟩ :: (own ++ low)) rs os' fr' →
          Plan g [some t] (⟨(s : Int), i, st, its⟩ :: (own ++ low)) (r :: rs) os' fr' := by
        intro rs os' fr' h
        refine .go (first := 0) (sound_good ha.sound hr) (fun h => absurd h (by rw [hn]; decide)) (consumes_skip ha hr t) ?_
        rw [grown_skip ha hr hn]
        exact h
      rcases ih (⟨r.state, i, st, its⟩ :: own) low rfl ho1 t hc with ⟨k, ks1, h3, rs, own', h4, h5, h6, h7⟩ | ⟨rs, fr', h4, h5, h6, h7, h8⟩
      · exact .inl ⟨k, ks1, h3, r :: rs, own', .go hm h4, hplan h5, h6, h7⟩
      · exact .inr ⟨r :: rs, fr', .go hm h4, hplan h5, h6, h7, h8⟩
  | @read s t0 k r i st its rest ks1 T hr hn hw ih =>
    intro own low hfr ho t hc
    cases own with
    | nil => exact absurd rfl ho.ne
    | cons p own =>
      simp only [List.cons_append, List.cons.injEq] at hfr
      obtain ⟨rfl, rfl⟩ := hfr
      obtain ⟨gs, hgs⟩ := ho.top
      have hs := (List.getElem?_eq_some_iff.mp hgs).1
      obtain ⟨k', ks', hks, hR⟩ := hc.resolve_right (fun h => by cases h.1)
      obtain ⟨rfl, rfl, rfl⟩ : t0 = t ∧ k = k' ∧ ks1 = ks' := by simpa [and_assoc] using hks
      have hm := move_same ha (st := st) (its := its) (its' := its ++ [Item.tok t0]) (own := own) (i := i) hr hn (find_key ha hr hs hR) hr
      rw [consumes_read ha hr hn] at hm
      refine .inl ⟨k, ks1, rfl, [r], ⟨r.state, i, st, its ++ [Item.tok t0]⟩ :: own, .use hm, ?_, hw, ho.moved ha hr⟩
      refine .use (first := 0) (sound_good ha.sound hr) (fun h => absurd h (by rw [hn]; decide)) (consumes_read ha hr hn _) ?_
      rw [grown_read ha hr hn hR.ordinary]
      exact .nil
  | @push s t0 k r n f i st its rest ks1 T hr hn hf hw ih =>
    intro own low hfr ho t hc
    cases own with
    | nil => exact absurd rfl ho.ne
    | cons p own =>
      simp only [List.cons_append, List.cons.injEq] at hfr
      obtain ⟨rfl, rfl⟩ := hfr
      obtain ⟨gs, hgs⟩ := ho.top
      have hs := (List.getElem?_eq_some_iff.mp hgs).1
      have hc0 := hc
      obtain ⟨k', ks', hks, hR⟩ := hc.resolve_right (fun h => by cases h.1)
      obtain ⟨rfl, rfl, rfl⟩ : t0 = t ∧ k = k' ∧ ks1 = ks' := by simpa [and_assoc] using hks
      have hm := move_push ha (st := st) (its := its) (own := own) (i := i) (st' := some t0) hr hn hf (find_key ha hr hs hR) hr
      rw [consumes_push hn] at hm
      have hplan : ∀ {rs os' fr'}, Plan g [some t0] (⟨(f : Int), n, some t0, []⟩ :: ⟨r.state, i, st, its⟩ :: (own ++ low)) rs os' fr' →
          Plan g [some t0] (⟨(s : Int), i, st, its⟩ :: (own ++ low)) (r :: rs) os' fr' := by
        intro rs os' fr' h
        refine .go (first := f) (sound_good ha.sound hr) (fun _ => by rw [hn]; exact hf) (consumes_push hn t0) ?_
        rw [grown_push ha hr hn]
        exact h
      rcases ih (⟨(f : Int), n, some t0, []⟩ :: ⟨r.state, i, st, its⟩ :: own) low rfl (ho.pushed ha hr hn hf) t0 hc0 with
        ⟨k, ks1, h3, rs, own', h4, h5, h6, h7⟩ | ⟨rs, fr', h4, h5, h6, h7, h8⟩
      · exact .inl ⟨k, ks1, h3, r :: rs, own', .go hm h4, hplan h5, h6, h7⟩
      · exact .inr ⟨r :: rs, fr', .go hm h4, hplan h5, h6, h7, h8⟩

/-- Ended nodes are closed: either nothing but node `i0` is left and it is ended, or the top node is in some state. -/
theorem way_pops {fr : List Part} {ks : List (Token × Nat)} {T : List Item} (h : Way g m fr ks T) :
    ∀ own low, fr = own ++ low → Own g node next after i0 own low → partStates own ≠ [] →
      ∃ (s i : Nat) (st : Option Token) (its : List Item) (own' : List Part), partStates own = partStates (⟨(s : Int), i, st, its⟩ :: own') ∧
        (∀ os, Plan g os (own ++ low) [] os (⟨(s : Int), i, st, its⟩ :: own' ++ low)) ∧ Way g m (⟨(s : Int), i, st, its⟩ :: own' ++ low) ks T ∧
        Own g node next after i0 (⟨(s : Int), i, st, its⟩ :: own') low := by
  induction h with
  | @done i st its =>
    intro own low hfr ho hx
    cases own with
    | nil => exact absurd rfl ho.ne
    | cons p own =>
      simp only [List.cons_append, List.cons.injEq] at hfr
      obtain ⟨rfl, h2⟩ := hfr
      obtain ⟨rfl, rfl⟩ := List.append_eq_nil_iff.mp h2.symm
      exact absurd (by rw [partStates_final rfl]; rfl) hx
  | @pop i st its q rest ks T hw ih =>
    intro own low hfr ho hx
    cases own with
    | nil => exact absurd rfl ho.ne
    | cons p own =>
      simp only [List.cons_append, List.cons.injEq] at hfr
      obtain ⟨rfl, h2⟩ := hfr
      cases own with
      | nil => exact absurd (by rw [partStates_final rfl]; rfl) hx
      | cons q' own =>
        simp only [List.cons_append, List.cons.injEq] at h2
        obtain ⟨rfl, rfl⟩ := h2
        have hp : partStates (⟨finalState, i, st, its⟩ :: q :: own) = partStates ({ q with items := q.items ++ [.node i st its] } :: own) := by
          rw [partStates_final rfl]; rfl
        rw [hp] at hx
        obtain ⟨s, i1, st1, its1, own', h3, h4, h5, h6⟩ := ih ({ q with items := q.items ++ [.node i st its] } :: own) low rfl ho.popped hx
        exact ⟨s, i1, st1, its1, own', hp.trans h3, fun os => .pop (h4 os), h5, h6⟩
  | @skip s r i st its rest ks T hr hn hw ih =>
    intro own low hfr ho hx
    cases own with
    | nil => exact absurd rfl ho.ne
    | cons p own =>
      simp only [List.cons_append, List.cons.injEq] at hfr
      obtain ⟨rfl, rfl⟩ := hfr
      exact ⟨s, i, st, its, own, rfl, fun os => .nil, .skip hr hn hw, ho⟩
  | @read s t0 k r i st its rest ks1 T hr hn hw ih =>
    intro own low hfr ho hx
    cases own with
    | nil => exact absurd rfl ho.ne
    | cons p own =>
      simp only [List.cons_append, List.cons.injEq] at hfr
      obtain ⟨rfl, rfl⟩ := hfr
      exact ⟨s, i, st, its, own, rfl, fun os => .nil, .read hr hn hw, ho⟩
  | @push s t0 k r n f i st its rest ks1 T hr hn hf hw ih =>
    intro own low hfr ho hx
    cases own with
    | nil => exact absurd rfl ho.ne
    | cons p own =>
      simp only [List.cons_append, List.cons.injEq] at hfr
      obtain ⟨rfl, rfl⟩ := hfr
      exact ⟨s, i, st, its, own, rfl, fun os => .nil, .push hr hn hf hw, ho⟩

/-- The next key has no rules in the top state. -/
def Unwanted (m : Table) (x : List Int) (ks : List (Token × Nat)) : Prop :=
  ∀ (s : Nat) x' t k ks1, x = (s : Int) :: x' → ks = (t, k) :: ks1 → m s (k : Nat) = []

/-- There is a rule that takes no token when the next key has no rules. -/
theorem way_top {s i : Nat} {st : Option Token} {its : List Item} {rest : List Part} {ks : List (Token × Nat)} {T : List Item}
    (h : Way g m (⟨(s : Int), i, st, its⟩ :: rest) ks T) :
    (∃ r, r ∈ m s anyToken ∧ r.node = sameNode ∧ Way g m (⟨r.state, i, st, its⟩ :: rest) ks T) ∨
    ∃ t k ks1 r, ks = (t, k) :: ks1 ∧ r ∈ m s (k : Nat) ∧ ((r.node = sameNode ∧ Way g m (⟨r.state, i, st, its ++ [.tok t]⟩ :: rest) ks1 T) ∨
      ∃ n f : Nat, r.node = n ∧ g.firsts[n]? = some f ∧ Way g m (⟨(f : Int), n, some t, []⟩ :: ⟨r.state, i, st, its⟩ :: rest) ks T) := by
  generalize hfr : ((⟨(s : Int), i, st, its⟩ : Part) :: rest) = fr at h
  cases h with
  | done => simp [finalState] at hfr
  | pop => simp [finalState] at hfr
  | skip hr hn hw =>
    simp only [List.cons.injEq, Part.mk.injEq, Nat.cast_inj] at hfr
    obtain ⟨⟨rfl, rfl, rfl, rfl⟩, rfl⟩ := hfr
    exact .inl ⟨_, hr, hn, hw⟩
  | read hr hn hw =>
    simp only [List.cons.injEq, Part.mk.injEq, Nat.cast_inj] at hfr
    obtain ⟨⟨rfl, rfl, rfl, rfl⟩, rfl⟩ := hfr
    exact .inr ⟨_, _, _, _, rfl, hr, .inl ⟨hn, hw⟩⟩
  | push hr hn hf hw =>
    simp only [List.cons.injEq, Part.mk.injEq, Nat.cast_inj] at hfr
    obtain ⟨⟨rfl, rfl, rfl, rfl⟩, rfl⟩ := hfr
    exact .inr ⟨_, _, _, _, rfl, hr, .inr ⟨_, _, hn, hf, hw⟩⟩

theorem way_none (ha : AheadTables g m node next after also) {own low : List Part} {ks : List (Token × Nat)} {T : List Item} (h : Way g m (own ++ low) ks T)
    (ho : Own g node next after i0 own low) (hx : partStates own ≠ []) (hu : Unwanted m (partStates own) ks) :
    UsesIt g upper m node next after i0 none own low ks T := by
  obtain ⟨s, i, st, its, own', h1, h2, h3, h4⟩ := way_pops h own low rfl ho hx
  obtain ⟨gs, hgs⟩ := h4.top
  have hs := (List.getElem?_eq_some_iff.mp hgs).1
  rcases way_top h3 with ⟨r, hr, hn, hw⟩ | ⟨t, k, ks1, r, rfl, hr, -⟩
  · have hany : m s anyToken = [r] := single_of (ha.many.rest s) hr
    have hm := move_same ha (upper := upper) (tok := none) (st := st) (its := its) (its' := its) (own := own') (i := i) hr hn
      (C39_no_token ha.sound.means s hs) hr
    have hc : consumes r none = true := by simp [consumes]
    rw [hc, ← h1] at hm
    refine ⟨[r], ⟨r.state, i, st, its⟩ :: own', .use hm, ?_, hw, h4.moved ha hr⟩
    refine (h2 _).trans (rs := []) (.use (first := 0) (sound_good ha.sound hr) (fun h => absurd h (by rw [hn]; decide)) hc ?_)
    have := grown_skip ha (i := i) (st := st) (its := its) (rest := own' ++ low) hr hn none
    exact this ▸ Plan.nil
  · rw [h1, partStates_nat] at hu
    exact absurd (hu s _ t k ks1 rfl rfl) (List.ne_nil_of_mem hr)

theorem side_find {t : Token} (ht : g.isSideType t.type = true) {s : Nat} {gs : GState} (hs : g.tables.states[s]? = some gs) :
    findRules g upper (some t) s = some [⟨t.type, repeatState, sameNode⟩] := by
  rw [findRules]
  have : Go.index g.tables.states (s : Int) = some gs := by simp [Go.index, hs]
  rw [this, Option.bind_some]
  dsimp only
  rw [if_pos ht]

theorem side_uses {t : Token} (ht : g.isSideType t.type = true) : consumes ⟨t.type, repeatState, sameNode⟩ (some t) = true := by
  have h0 : 0 ≤ t.type := by
    by_contra hc
    rw [Grammar.isSideType, if_neg hc] at ht; cases ht
  simp only [consumes, decide_eq_true_eq]
  left
  exact ⟨trivial, by unfold anyToken; omega⟩

/-- Every variant inside the node takes a side token. -/
theorem side_taken {t : Token} (ht : g.isSideType t.type = true) {s : Nat} {gs : GState} (hs : g.tables.states[s]? = some gs) (x : List Int) :
    Takes g upper (some t) ((s : Int) :: x) [⟨t.type, repeatState, sameNode⟩] ((s : Int) :: x) := by
  refine .use ⟨_, _, _, [Spec.after ⟨t.type, repeatState, sameNode⟩ s], rfl, side_find ht hs, List.mem_singleton.mpr rfl, .inl ⟨rfl, rfl⟩, ?_, ?_⟩
  · have : Spec.after ⟨t.type, repeatState, sameNode⟩ (s : Int) = s := by simp [Spec.after, repeatState]
    rw [this]
    rw [List.singleton_append, List.dropWhile_cons_of_neg]
    simp only [decide_eq_true_eq]; omega
  · rw [← consumes_spec, side_uses ht]

theorem side_good (t : Token) : GoodRule g ⟨t.type, repeatState, sameNode⟩ := ⟨.inl rfl, .inl rfl⟩

theorem grown_side {t : Token} (ht : g.isSideType t.type = true) {s i : Nat} {st : Option Token} {its : List Item} {rest : List Part} :
    grown g (some t) ⟨t.type, repeatState, sameNode⟩ 0 (⟨(s : Int), i, st, its⟩ :: rest) = ⟨(s : Int), i, st, its⟩ :: rest := by
  simp [grown, ht, Spec.after, repeatState]

theorem way_side {t : Token} (ht : g.isSideType t.type = true) {own low : List Part} {ks : List (Token × Nat)} {T : List Item}
    (h : Way g m (own ++ low) ks T) (ho : Own g node next after i0 own low) (hx : partStates own ≠ []) :
    UsesIt g upper m node next after i0 (some t) own low ks T := by
  obtain ⟨s, i, st, its, own', h1, h2, h3, h4⟩ := way_pops h own low rfl ho hx
  obtain ⟨gs, hgs⟩ := h4.top
  refine ⟨[⟨t.type, repeatState, sameNode⟩], ⟨(s : Int), i, st, its⟩ :: own', ?_, ?_, h3, h4⟩
  · rw [h1, partStates_nat]
    exact side_taken ht hgs _
  · refine (h2 _).trans (rs := []) (.use (first := 0) (side_good t) (fun h => absurd (show (0 : Int) ≤ sameNode from h) (by decide)) (side_uses ht) ?_)
    have := grown_side ht (i := i) (s := s) (st := st) (its := its) (rest := own' ++ low)
    refine Eq.mp (congrArg (fun l => Plan g [] l [] [] _) this.symm) ?_
    exact .nil

end

end Verif.Proof
