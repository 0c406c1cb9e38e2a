/-
A check for grammars in which tokens read ahead are enough to choose what to do.
-/
import Verif.Proof.OneTokenCheck
import Verif.Spec.ManyTokens
import Verif.Props.Keys

namespace Verif.Proof

open Verif.Model Verif.Spec Verif.Props

/-- Kinds of tokens: no token, a token of some type with keys, a side token. -/
inductive Cls
  | nothing
  | keys (ty : Int) (l : List Int)
  | side (ty : Int)
  deriving DecidableEq

/-- Rules for keys in a state. -/
def rulesBy (g : Grammar) (l : List Int) (s : Int) : List Rule :=
  ((Go.index g.tables.states s).bind fun st => findRulesBy g.tables st l).getD []

/-- Rules for a kind in a state. -/
def Cls.rules (g : Grammar) : Cls → Int → List Rule
  | .nothing, s => rulesBy g [anyToken] s
  | .keys _ l, s => rulesBy g l s
  | .side ty, _ => [⟨ty, repeatState, sameNode⟩]

/-- The token is of the kind. -/
def Cls.Is (g : Grammar) (upper : List Nat → List Nat) : Cls → Option Token → Prop
  | .nothing, o => o = none
  | .keys ty l, o => ∃ t, o = some t ∧ t.type = ty ∧ g.isSideType ty = false ∧ possibleRuleKeys g upper (some t) = some l
  | .side ty, o => ∃ t, o = some t ∧ t.type = ty ∧ g.isSideType ty = true

/-- Moves with a token of the kind. -/
def movesL (g : Grammar) (c : Cls) : List Int → List (Rule × List Int × Bool)
  | [] => []
  | s :: rest => (c.rules g s).flatMap fun r =>
    if r.node = -1 then [(r, ([Spec.after r s] ++ rest).dropWhile (· = -1), decide (r.token ≠ -1) || decide (c = .nothing))]
    else match g.firsts[r.node.toNat]? with
      | some f => [(r, ([(f : Int), Spec.after r s] ++ rest).dropWhile (· = -1), decide (c = .nothing))]
      | none => []

/-- Variants of using a token or leaving the node. -/
def runL (g : Grammar) (c : Cls) : Nat → List Int → Option (List (List Rule × Option (List Int)))
  | _, [] => some [([], none)]
  | 0, _ :: _ => none
  | n + 1, s :: rest => (movesL g c (s :: rest)).foldr (fun x acc => acc.bind fun l =>
      if x.2.2 then some (([x.1], some x.2.1) :: l)
      else (runL g c n x.2.1).map fun l' => l'.map (fun y => (x.1 :: y.1, y.2)) ++ l) (some [])

/-- A pair of variants: stacks, and if rules are known to be the same. -/
abbrev Pair := List Int × List Int × Bool

/-- Tokens of the kind may be given after the node. -/
def Cls.mayCome (sides : Bool) (after : Nat → List Int) (i : Nat) : Cls → Bool
  | .nothing => false
  | .keys _ l => l.any fun k => decide (k ≠ anyToken) && (after i).contains k
  | .side _ => sides

/-- Tokens of the kind are given on the request. -/
def Cls.wanted (asks : TokenTypeSet → Bool) (types : TokenTypeSet) : Cls → Bool
  | .nothing => true
  | .keys ty _ => if ty < 0 then asks types else types.getLsbD ty.toNat
  | .side ty => if ty < 0 then asks types else types.getLsbD ty.toNat

/-- Variants `L` and `L'` of two branches for the next token. -/
def pairOk (may e : Bool) (D : List Pair) (L L' : List (List Rule × Option (List Int))) : Bool :=
  L.all fun a => L'.all fun b => match a.2, b.2 with
    | some x, some y => D.contains (x, y, e && decide (a.1 = b.1))
    | none, some _ => !may
    | none, none => !may || (e && decide (a.1 = b.1))
    | some _, none => true

/-- A check of branches of one conflict state. -/
def settleStateCheck (g : Grammar) (cs : List Cls) (sides : Bool) (asks : TokenTypeSet → Bool) (node : Nat → Nat) (after : Nat → List Int)
    (fuel : Nat) (D : List Pair) (s : Nat) : Bool :=
  (cs.all fun c => decide ((c.rules g s).length ≤ 1) || (runL g c fuel [(s : Int)]).any fun L => pairOk (c.mayCome sides after (node s)) true D L L) &&
  D.all fun p =>
    (p.2.2 || decide (topTypes g p.1 ||| topTypes g p.2.1 ≠ 0)) &&
    (!p.1.isEmpty || p.2.1.isEmpty || (cs.all (fun c => !(c.mayCome sides after (node s)) || c.wanted asks (topTypes g p.2.1)) &&
      (!((after (node s)).contains eoiTokenType) || asks (topTypes g p.2.1)))) &&
    cs.all fun c => (runL g c fuel p.1).any fun L => (runL g c fuel p.2.1).any fun L' => pairOk (c.mayCome sides after (node s)) p.2.2 D L L'

/-- A check for `Settles`. -/
def settleCheck (g : Grammar) (cs : List Cls) (sides : Bool) (asks : TokenTypeSet → Bool) (node : Nat → Nat) (after : Nat → List Int)
    (fuel : Nat) (D : Nat → List Pair) : Bool :=
  (List.range g.tables.states.length).all fun s => settleStateCheck g cs sides asks node after fuel (D s) s

/-- A check for `ManyTokens`. -/
def manyTokensCheck (g : Grammar) (c : Cert) (also : Int → List Int) : Bool :=
  let m := tableOf g
  (List.range g.tables.states.length).all fun s =>
    decide ((m s anyToken).length ≤ 1) &&
    ((m s anyToken).all fun r => (c.comes r.state (c.nodeOf s)).all fun k =>
      (m s k).isEmpty && (also k).all fun k' => (m s k').isEmpty) &&
    (ruleKeys g).all fun k => (m s k).isEmpty || (also k).all fun k' => !(literalKey g k') || (m s k').isEmpty

/-- Pairs of branches that use a token. -/
def bothUse (e : Bool) (L L' : List (List Rule × Option (List Int))) : List Pair :=
  L.flatMap fun a => L'.flatMap fun b => match a.2, b.2 with
    | some x, some y => [(x, y, e && decide (a.1 = b.1))]
    | _, _ => []

/-- Pairs of branches found by some number of steps. -/
def pairsOf (g : Grammar) (cs : List Cls) (fuel n : Nat) (s : Nat) : List Pair :=
  let D0 := cs.foldl (fun D c => if (c.rules g s).length ≤ 1 then D else
    D.union (((runL g c fuel [(s : Int)]).map fun L => bothUse true L L).getD [])) []
  (fun D => D.foldl (fun D p => cs.foldl (fun D c =>
    D.union (((runL g c fuel p.1).bind fun L => (runL g c fuel p.2.1).map fun L' => bothUse p.2.2 L L').getD [])) D) D)^[n] D0

variable {g : Grammar} {upper : List Nat → List Nat}

theorem is_rules {c : Cls} {o : Option Token} (h : c.Is g upper o) {s : Int} {rules : List Rule} (hf : findRules g upper o s = some rules) :
    rules = c.rules g s := by
  rw [findRules, Option.bind_eq_some_iff] at hf
  obtain ⟨st, h1, h2⟩ := hf
  cases c with
  | nothing =>
    cases h
    simp only [possibleRuleKeys, Option.bind_some] at h2
    simp [Cls.rules, rulesBy, h1, h2]
  | keys ty l =>
    obtain ⟨t, rfl, rfl, h3, h4⟩ := h
    simp only [h3, Bool.false_eq_true, if_false, h4, Option.bind_some] at h2
    simp [Cls.rules, rulesBy, h1, h2]
  | side ty =>
    obtain ⟨t, rfl, rfl, h3⟩ := h
    simp only [h3, if_true, Option.some.injEq] at h2
    rw [← h2]; rfl

theorem is_nothing {c : Cls} {o : Option Token} (h : c.Is g upper o) : c = .nothing ↔ o = none := by
  cases c with
  | nothing => cases h; simp
  | keys ty l => obtain ⟨t, rfl, -⟩ := h; simp
  | side ty => obtain ⟨t, rfl, -⟩ := h; simp

theorem move_mem {c : Cls} {o : Option Token} (h : c.Is g upper o) {st st' : List Int} {r : Rule} {u : Bool} (hm : Move g upper o st r st' u) :
    (r, st', u) ∈ movesL g c st := by
  obtain ⟨s, rest, rules, top, rfl, h1, h2, h3, rfl, h4⟩ := hm
  have h5 := is_rules h h1
  subst h5
  rw [movesL, List.mem_flatMap]
  refine ⟨r, h2, ?_⟩
  have hu : u = (decide (r.node = -1 ∧ r.token ≠ -1) || decide (c = .nothing)) := by
    rw [Bool.eq_iff_iff, h4]
    simp [is_nothing h]
  rcases h3 with ⟨h3, rfl⟩ | ⟨i, f, h3, h6, rfl⟩
  · rw [if_pos h3, hu]
    simp [h3]
  · have h7 : r.node ≠ -1 := by omega
    have h8 : r.node.toNat = i := by omega
    rw [if_neg h7, h8, h6, hu]
    simp [h7]

theorem runL_sub {c : Cls} {n : Nat} {s : Int} {rest : List Int} {L : List (List Rule × Option (List Int))} (h : runL g c (n + 1) (s :: rest) = some L)
    {r : Rule} {st' : List Int} {u : Bool} (hm : (r, st', u) ∈ movesL g c (s :: rest)) :
    (u = true → ([r], some st') ∈ L) ∧ (u = false → ∃ L', runL g c n st' = some L' ∧ ∀ y ∈ L', (r :: y.1, y.2) ∈ L) := by
  rw [runL] at h
  generalize movesL g c (s :: rest) = M at h hm
  induction M generalizing L with
  | nil => cases hm
  | cons x M ih =>
    rw [List.foldr_cons, Option.bind_eq_some_iff] at h
    obtain ⟨l, h1, h2⟩ := h
    split at h2
    · rename_i hx
      cases h2
      rcases List.mem_cons.mp hm with rfl | hm
      · exact ⟨fun _ => by simp, fun h => by rw [h] at hx; cases hx⟩
      · obtain ⟨h3, h4⟩ := ih h1 hm
        refine ⟨fun h => by simp [h3 h], fun h => ?_⟩
        obtain ⟨L', h5, h6⟩ := h4 h
        exact ⟨L', h5, fun y hy => by simp [h6 y hy]⟩
    · rename_i hx
      rw [Option.map_eq_some_iff] at h2
      obtain ⟨l', h2, rfl⟩ := h2
      rcases List.mem_cons.mp hm with rfl | hm
      · refine ⟨fun h => absurd h hx, fun _ => ⟨l', h2, fun y hy => ?_⟩⟩
        exact List.mem_append_left _ (List.mem_map.mpr ⟨y, hy, rfl⟩)
      · obtain ⟨h3, h4⟩ := ih h1 hm
        refine ⟨fun h => by simp [h3 h], fun h => ?_⟩
        obtain ⟨L', h5, h6⟩ := h4 h
        exact ⟨L', h5, fun y hy => List.mem_append_right _ (h6 y hy)⟩

theorem takes_mem {c : Cls} {o : Option Token} (h : c.Is g upper o) {st st' : List Int} {rs : List Rule} (ht : Takes g upper o st rs st') :
    ∀ {n : Nat} {L : List (List Rule × Option (List Int))}, runL g c n st = some L → (rs, some st') ∈ L := by
  induction ht with
  | use hm =>
    intro n L hr
    have hmm := move_mem h hm
    obtain ⟨s, rest, _, _, rfl, -⟩ := hm
    cases n with
    | zero => cases hr
    | succ n => exact (runL_sub hr hmm).1 rfl
  | go hm _ ih =>
    intro n L hr
    have hmm := move_mem h hm
    obtain ⟨s, rest, _, _, rfl, -⟩ := hm
    cases n with
    | zero => cases hr
    | succ n =>
      obtain ⟨L', h1, h2⟩ := (runL_sub hr hmm).2 rfl
      exact h2 _ (ih h1)

theorem leaves_mem {c : Cls} {o : Option Token} (h : c.Is g upper o) {st : List Int} {rs : List Rule} (ht : Leaves g upper o st rs) :
    ∀ {n : Nat} {L : List (List Rule × Option (List Int))}, runL g c n st = some L → (rs, none) ∈ L := by
  induction ht with
  | now =>
    intro n L hr
    cases n <;> (cases hr; simp)
  | go hm _ ih =>
    intro n L hr
    have hmm := move_mem h hm
    obtain ⟨s, rest, _, _, rfl, -⟩ := hm
    cases n with
    | zero => cases hr
    | succ n =>
      obtain ⟨L', h1, h2⟩ := (runL_sub hr hmm).2 rfl
      exact h2 _ (ih h1)

/-- What a check says about variants for the next token. -/
structure PairGood (g : Grammar) (upper : List Nat → List Nat) (may e : Bool) (D : List Pair) (o : Option Token) (x y : List Int) : Prop where
  both : ∀ ra x', Takes g upper o x ra x' → ∀ rb y', Takes g upper o y rb y' → (x', y', e && decide (ra = rb)) ∈ D
  leave : may = true → ∀ ra, Leaves g upper o x ra → (∀ rb y', ¬ Takes g upper o y rb y') ∧ ∀ rb, Leaves g upper o y rb → e = true ∧ ra = rb

theorem pairGood {c : Cls} {o : Option Token} (h : c.Is g upper o) {may e : Bool} {D : List Pair} {x y : List Int} {n : Nat}
    (hc : ((runL g c n x).any fun L => (runL g c n y).any fun L' => pairOk may e D L L') = true) : PairGood g upper may e D o x y := by
  simp only [Option.any_eq_true] at hc
  obtain ⟨L, h1, L', h2, h3⟩ := hc
  have h4 : ∀ a ∈ L, ∀ b ∈ L', _ := fun a ha b hb => List.all_eq_true.mp (List.all_eq_true.mp h3 a ha) b hb
  refine ⟨fun ra x' hx rb y' hy => ?_, fun hm ra hx => ⟨fun rb y' hy => ?_, fun rb hy => ?_⟩⟩
  · have := h4 _ (takes_mem h hx h1) _ (takes_mem h hy h2)
    simpa using this
  · have := h4 _ (leaves_mem h hx h1) _ (takes_mem h hy h2)
    simp [hm] at this
  · have := h4 _ (leaves_mem h hx h1) _ (leaves_mem h hy h2)
    simpa [hm] using this

theorem may_mem (hd : DistinctLiterals g) {after : Nat → List Int} {sides : Bool} {i : Nat} {t : Token} {c : Cls} (h : c.Is g upper (some t))
    (ht : t.type < g.tokens.length) (hs : g.isSideType t.type = true → sides = true) (hm : MayCome g upper sides (fun i k => k ∈ after i) i t) : c.mayCome sides after i = true := by
  have hside0 : g.isSideType eoiTokenType = false := rfl
  cases c with
  | nothing => cases h
  | keys ty l =>
    obtain ⟨t', he, rfl, h1, h2⟩ := h
    cases he
    have hmem : ∀ k : Int, k ∈ l → k ≠ anyToken → k ∈ after i → Cls.mayCome sides after i (.keys t.type l) = true := by
      intro k h3 h4 h5
      rw [Cls.mayCome, List.any_eq_true]
      exact ⟨k, h3, by simp [h4, h5]⟩
    rcases hm with ⟨k, h3, h4⟩ | ⟨h3, h4⟩ | ⟨-, h3⟩
    · refine hmem k ?_ (by unfold anyToken; omega) h3
      rcases keys_of (upper := upper) hd t ht with ⟨j, e1, e2, e3⟩ | ⟨j, e1, e2, e3⟩ | ⟨e1, e3⟩
      · rw [h2] at e3; cases e3
        rcases h4 with h4 | ⟨-, h4⟩
        · rw [isLiteral_unique hd h4 e1]; simp
        · exact absurd e2 (h4 _ e1)
      · rw [h2] at e3; cases e3
        rcases h4 with h4 | ⟨h4, -⟩
        · rw [isLiteral_unique hd h4 e1]; simp
        · rw [h4]; simp
      · rw [h2] at e3; cases e3
        rcases h4 with h4 | ⟨h4, -⟩
        · exact absurd h4 (e1 _)
        · rw [h4]; simp
    · refine hmem _ ?_ (by decide) h4
      rw [possibleRuleKeys, h3] at h2
      have : l = [eoiTokenType, anyToken] := by
        rw [if_neg (by decide)] at h2
        simpa using h2.symm
      rw [this]; simp
    · rw [h1] at h3; cases h3
  | side ty =>
    obtain ⟨t', he, rfl, h1⟩ := h
    cases he
    exact hs h1

/-- Two variants of using tokens are among the pairs. -/
theorem pairs_joint {P : Option Token → Prop} {may : Option Token → Bool} {D : List Pair}
    (hD : ∀ p ∈ D, ∀ o, P o → PairGood g upper (may o) p.2.2 D o p.1 p.2.1) :
    ∀ {ts : List (Option Token)} {x0 x : List Int} {rs : List Rule}, TakesAll g upper ts x0 rs x → (∀ o ∈ ts, P o) →
    ∀ {y0 y : List Int} {rs' : List Rule} {e0 : Bool}, (x0, y0, e0) ∈ D → TakesAll g upper ts y0 rs' y →
    ∃ e, (x, y, e) ∈ D ∧ (e = true → e0 = true ∧ rs = rs') := by
  intro ts x0 x rs h
  induction h with
  | nil =>
    intro _ y0 y rs' e0 h0 h1
    cases h1
    exact ⟨e0, h0, fun h => ⟨h, rfl⟩⟩
  | cons ht _ ih =>
    intro hp y0 y rs' e0 h0 h1
    cases h1 with
    | cons ht' h1 =>
      have hg := hD _ h0 _ (hp _ List.mem_cons_self)
      obtain ⟨e, h2, h3⟩ := ih (fun o ho => hp o (List.mem_cons_of_mem _ ho)) (hg.both _ _ ht _ _ ht') h1
      refine ⟨e, h2, fun h => ?_⟩
      obtain ⟨h4, rfl⟩ := h3 h
      rw [Bool.and_eq_true, decide_eq_true_eq] at h4
      exact ⟨h4.1, congrArg (· ++ _) h4.2⟩

theorem takesAll_first {ts : List (Option Token)} {st : List Int} {rs : List Rule} {x : List Int} {o : Option Token}
    (h : TakesAll g upper (o :: ts) st rs x) : ∃ r1 x1 r2, rs = r1 ++ r2 ∧ Takes g upper o st r1 x1 ∧ TakesAll g upper ts x1 r2 x := by
  cases h with
  | cons h1 h2 => exact ⟨_, _, _, rfl, h1, h2⟩

theorem settles_of_check (hd : DistinctLiterals g) {P : Option Token → Prop} {cs : List Cls} {sides : Bool} {asksB : TokenTypeSet → Bool}
    {asks : TokenTypeSet → Prop} (hasks : ∀ types, asksB types = true → asks types) {node : Nat → Nat} {after : Nat → List Int} {fuel : Nat}
    {D : Nat → List Pair} (hcs : ∀ o, P o → ∃ c ∈ cs, c.Is g upper o)
    (hP : ∀ t, P (some t) → t.type < g.tokens.length ∧ (g.isSideType t.type = true → sides = true))
    (h : settleCheck g cs sides asksB node after fuel D = true) :
    Settles g upper P sides asks node (fun i k => k ∈ after i) := by
  have hst : ∀ s < g.tables.states.length, settleStateCheck g cs sides asksB node after fuel (D s) s = true :=
    fun s hs => List.all_eq_true.mp h s (List.mem_range.mpr hs)
  have hlt : ∀ {s : Nat} {o : Option Token} {rules}, findRules g upper o s = some rules → s < g.tables.states.length := by
    intro s o rules hf
    rw [findRules, Option.bind_eq_some_iff] at hf
    obtain ⟨st, h1, -⟩ := hf
    by_contra hc
    simp [Go.index, List.getElem?_eq_none (by omega : g.tables.states.length ≤ s)] at h1
  -- what is said for the state
  have hfirst : ∀ {s : Nat} {o : Option Token} {rules}, findRules g upper o s = some rules → 1 < rules.length → P o →
      ∃ c ∈ cs, c.Is g upper o ∧ PairGood g upper (c.mayCome sides after (node s)) true (D s) o [(s : Int)] [(s : Int)] := by
    intro s o rules hf hl hp
    obtain ⟨c, hc, hi⟩ := hcs o hp
    have h1 := hst s (hlt hf)
    rw [settleStateCheck, Bool.and_eq_true] at h1
    have h2 := List.all_eq_true.mp h1.1 c hc
    rw [← is_rules hi hf, Bool.or_eq_true, decide_eq_true_eq] at h2
    have h3 := h2.resolve_left (by omega)
    refine ⟨c, hc, hi, pairGood (n := fuel) hi ?_⟩
    rw [Option.any_eq_true] at h3 ⊢
    obtain ⟨L, h4, h5⟩ := h3
    exact ⟨L, h4, by rw [h4]; exact h5⟩
  have hnext : ∀ {s : Nat}, s < g.tables.states.length → ∀ p ∈ D s, ∀ o, P o → ∃ c ∈ cs, c.Is g upper o ∧
      PairGood g upper (c.mayCome sides after (node s)) p.2.2 (D s) o p.1 p.2.1 := by
    intro s hs p hp o ho
    obtain ⟨c, hc, hi⟩ := hcs o ho
    have h1 := hst s hs
    rw [settleStateCheck, Bool.and_eq_true] at h1
    have h2 := List.all_eq_true.mp h1.2 p hp
    rw [Bool.and_eq_true] at h2
    exact ⟨c, hc, hi, pairGood hi (List.all_eq_true.mp h2.2 c hc)⟩
  have hjoint : ∀ {s : Nat} {ts : List (Option Token)} {rs x rs' y}, InConflict g upper s ts → (∀ o ∈ ts, P o) →
      TakesAll g upper ts [(s : Int)] rs x → TakesAll g upper ts [(s : Int)] rs' y →
      s < g.tables.states.length ∧ ∃ e, (x, y, e) ∈ D s ∧ (e = true → rs = rs') := by
    rintro s (_ | ⟨o, ts⟩) rs x rs' y ⟨tok, rules, h1, h2, h3⟩ hp hx hy
    · cases h1
    · cases h1
      obtain ⟨r1, x1, r2, rfl, k1, k2⟩ := takesAll_first hx
      obtain ⟨r1', y1, r2', rfl, k1', k2'⟩ := takesAll_first hy
      obtain ⟨c, hc, hi, hg⟩ := hfirst h2 h3 (hp _ (by simp))
      have hs := hlt h2
      obtain ⟨e, h4, h5⟩ := pairs_joint (P := P) (may := fun _ => false) (D := D s) (fun p hp' o ho => by
        obtain ⟨c, -, -, hg⟩ := hnext hs p hp' o ho
        exact ⟨hg.both, fun h => by cases h⟩) k2 (fun o ho => hp o (by simp [ho])) (hg.both _ _ k1 _ _ k1') k2'
      refine ⟨hs, e, h4, fun h => ?_⟩
      obtain ⟨h6, rfl⟩ := h5 h
      simp only [Bool.true_and, decide_eq_true_eq] at h6
      rw [h6]
  refine ⟨fun s ts t rs x rs' y hcf hp hx hy hmay ra hl => ?_, fun s ts rs rs' y0 y hcf hp hx hy => ?_,
    fun s ts rs x rs' y hcf hp hx hy hne => ?_⟩
  · have hpt : P (some t) := hp _ (by simp)
    have key : ∃ c ∈ cs, ∃ e, c.Is g upper (some t) ∧ PairGood g upper (c.mayCome sides after (node s)) e (D s) (some t) x y ∧ (e = true → rs = rs') := by
      cases ts with
      | nil =>
        obtain ⟨tok, rules, h1, h2, h3⟩ := hcf
        cases h1
        cases hx
        cases hy
        obtain ⟨c, hc, hi, hg⟩ := hfirst h2 h3 hpt
        exact ⟨c, hc, true, hi, hg, fun _ => rfl⟩
      | cons o ts =>
        obtain ⟨hs, e, h1, h2⟩ := hjoint (ts := o :: ts) hcf (fun o ho => hp o (by
          rcases List.mem_cons.mp ho with h | h <;> simp [h])) hx hy
        obtain ⟨c, hc, hi, hg⟩ := hnext hs _ h1 _ hpt
        exact ⟨c, hc, e, hi, hg, h2⟩
    obtain ⟨c, hc, e, hi, hg, he⟩ := key
    obtain ⟨hp1, hp2⟩ := hP t hpt
    obtain ⟨h1, h2⟩ := hg.leave (may_mem hd hi hp1 hp2 hmay) ra hl
    refine ⟨h1, fun rb hb => ?_⟩
    obtain ⟨h3, h4⟩ := h2 rb hb
    rw [he h3, h4]
  · obtain ⟨hs, e, h1, h2⟩ := hjoint hcf hp hx hy
    have h3 := hst s hs
    rw [settleStateCheck, Bool.and_eq_true] at h3
    have h4 := List.all_eq_true.mp h3.2 _ h1
    simp only [Bool.and_eq_true, List.isEmpty_nil, List.isEmpty_cons, Bool.not_true, Bool.false_or, Bool.or_eq_true, Bool.not_eq_true'] at h4
    obtain ⟨⟨-, h5, h6⟩, -⟩ := h4
    refine ⟨fun t hpt hmay => ?_, fun haf => ?_⟩
    · obtain ⟨c, hc, hi⟩ := hcs _ hpt
      obtain ⟨hp1, hp2⟩ := hP t hpt
      have h7 := List.all_eq_true.mp h5 c hc
      rw [may_mem hd hi hp1 hp2 hmay, Bool.not_true, Bool.false_or] at h7
      cases c with
      | nothing => cases hi
      | keys ty l =>
        obtain ⟨t', he, rfl, -⟩ := hi
        cases he
        rw [Cls.wanted] at h7
        unfold Wanted
        split at h7
        · rename_i hneg; rw [if_pos hneg]; exact hasks _ h7
        · rename_i hneg; rw [if_neg hneg]; exact h7
      | side ty =>
        obtain ⟨t', he, rfl, -⟩ := hi
        cases he
        rw [Cls.wanted] at h7
        unfold Wanted
        split at h7
        · rename_i hneg; rw [if_pos hneg]; exact hasks _ h7
        · rename_i hneg; rw [if_neg hneg]; exact h7
    · rcases h6 with h6 | h6
      · rw [← List.contains_iff_mem, h6] at haf; cases haf
      · exact hasks _ h6
  · obtain ⟨hs, e, h1, h2⟩ := hjoint hcf hp hx hy
    have h3 := hst s hs
    rw [settleStateCheck, Bool.and_eq_true] at h3
    have h4 := List.all_eq_true.mp h3.2 _ h1
    simp only [Bool.and_eq_true, Bool.or_eq_true, decide_eq_true_eq] at h4
    rcases h4.1.1 with h5 | h5
    · exact absurd (h2 h5) hne
    · exact h5

theorem manyTokens_of_check (hm : Means g.tables (tableOf g)) {c : Cert} {al : Int → List Int} {also : Int → Int → Prop}
    (hal : ∀ k k', also k k' → k' ∈ al k) (h : manyTokensCheck g c al = true) :
    ManyTokens g (tableOf g) c.nodeOf (fun s k => k ∈ c.nextOf s) (fun i k => k ∈ c.afterOf i) also := by
  rw [manyTokensCheck] at h
  have hs : ∀ s < g.tables.states.length, _ := fun s hs => List.all_eq_true.mp h s (List.mem_range.mpr hs)
  simp only [Bool.and_eq_true] at hs
  refine ⟨fun s => ?_, fun s r hr k hk => ?_, fun s k k' hne h1 h2 => ?_⟩
  · by_cases hne : tableOf g s anyToken = []
    · rw [hne]; simp
    · exact decide_eq_true_eq.mp (hs s (tableOf_lt hne)).1.1
  · rw [cert_comes] at hk
    have := List.all_eq_true.mp (List.all_eq_true.mp (hs s (tableOf_lt (List.ne_nil_of_mem hr))).1.2 r hr) k hk
    rw [Bool.and_eq_true, List.isEmpty_iff] at this
    refine ⟨this.1, fun k' hk' => ?_⟩
    have := List.all_eq_true.mp this.2 k' (hal k k' hk')
    rwa [List.isEmpty_iff] at this
  · have := List.all_eq_true.mp (hs s (tableOf_lt hne)).2 k (tableOf_key hm hne)
    rw [Bool.or_eq_true, List.isEmpty_iff] at this
    have := List.all_eq_true.mp (this.resolve_left hne) k' (hal k k' h1)
    rw [Bool.or_eq_true, List.isEmpty_iff] at this
    refine this.resolve_left ?_
    obtain ⟨h3, t, h4, h5⟩ := h2
    simp [literalKey, h3, h4, h5]

end Verif.Proof
