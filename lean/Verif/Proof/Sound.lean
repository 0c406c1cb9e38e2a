/-
Parse trees that follow the rules are described by node machines.
-/
import Verif.Props.Keys
import Verif.Props.ParseTree
import Verif.Props.Compile
import Verif.Spec.Spells

namespace Verif.Proof

open Verif.Model Verif.Spec Verif.Spec.Ebnf Verif.Props

variable {σ : Type}

theorem spells_append {rel : Sym → Token → Prop} {side : Token → Prop} {L : Nat → List Sym → Prop} {w v : List Sym}
    {a b : List Item} (h : Spells rel side L w a) (h2 : Spells rel side L v b) : Spells rel side L (w ++ v) (a ++ b) := by
  induction h with
  | nil => exact h2
  | side hs _ ih => exact .side hs ih
  | tok hr _ ih => exact .tok hr ih
  | node hl hu _ _ ih => exact .node hl hu ih

theorem spells_mono {rel rel' : Sym → Token → Prop} {side : Token → Prop} {L L' : Nat → List Sym → Prop} {Q : Sym → Prop}
    (hrel : ∀ x t, Q x → rel x t → rel' x t) (hL : ∀ i u, Q (.node i) → L i u → L' i u ∧ ∀ x ∈ u, Q x)
    {w : List Sym} {a : List Item} (h : Spells rel side L w a) : (∀ x ∈ w, Q x) → Spells rel' side L' w a := by
  induction h with
  | nil => exact fun _ => .nil
  | side hs _ ih => exact fun hq => .side hs (ih hq)
  | tok hr _ ih => exact fun hq => .tok (hrel _ _ (hq _ (by simp)) hr) (ih fun x hx => hq x (by simp [hx]))
  | node hl hu _ ihu ih =>
    intro hq
    obtain ⟨h1, h2⟩ := hL _ _ (hq _ (by simp)) hl
    exact .node h1 (ihu h2) (ih fun x hx => hq x (by simp [hx]))

/-- A rule may be used for a token: the one made up for a side token, a fallback rule, or a rule for what the token may be
matched as. -/
def Usable (g : Grammar) (upper : List Nat → List Nat) (m : Table) (tok : Option Token) (s : Int) (r : Rule) : Prop :=
  (∃ t, tok = some t ∧ g.isSideType t.type = true ∧ r = ⟨t.type, repeatState, sameNode⟩) ∨
  ∃ (n : Nat) (k : Int), s = n ∧ r ∈ m n k ∧ r.token = k ∧ (∀ t, tok = some t → g.isSideType t.type = false) ∧ (k = anyToken ∨ ∃ t, tok = some t ∧
    ((∃ i : Nat, k = i ∧ MatchesAs g upper t i) ∨ (k < 0 ∧ t.type = k)))

/-- Relation between symbols and tokens before negative keys are told apart. -/
def Loose (g : Grammar) (upper : List Nat → List Nat) : Sym → Token → Prop
  | .tok k, t => MatchesAs g upper t k
  | .eoi, t => t.type < 0
  | .node _, _ => False

theorem walk_spells {g : Grammar} {upper : List Nat → List Nat} {m : Table} {P : Option Token → Int → Rule → Prop}
    {rel : Sym → Token → Prop} (hrel : ∀ (x : Sym) (t : Token) (n : Nat) (k : Int), ∀ r ∈ m n k, r.token = k → Rule.reads r = some x →
      r.node = -1 → g.isSideType t.type = false → ((∃ i : Nat, k = i ∧ MatchesAs g upper t i) ∨ (k < 0 ∧ t.type = k)) → rel x t)
    (hP : ∀ tok s r, P tok s r → Usable g upper m tok s r) (hst : ∀ (s : Nat) k, ∀ r ∈ m s k, r.state ≠ -128)
    {s s' : Int} {items : List Item} (h : Walk g P s items s') :
    ∃ w, Spells rel (fun t => g.isSideType t.type = true)
        (fun i u => ∃ f : Nat, g.firsts[i]? = some f ∧ Accepts m f u) w items ∧
      ∀ v, Accepts m s' v → Accepts m s (w ++ v) := by
  have hafter : ∀ (s : Nat) (k : Int) (s1 : Int), ∀ r ∈ m s k, after r s1 = r.state := by
    intro s k s1 r hr
    rw [after, if_neg (hst s k r hr)]
  induction h with
  | nil => exact ⟨[], .nil, fun v hv => hv⟩
  | skip hw hp hn ht ih =>
    obtain ⟨w, h1, h2⟩ := ih
    refine ⟨w, h1, fun v hv => h2 v ?_⟩
    rcases hP _ _ _ hp with ⟨t, rfl, hs, rfl⟩ | ⟨n, k, rfl, hr, hk, hns, hm⟩
    · simpa [after, repeatState] using hv
    · rw [hafter n k _ _ hr] at hv
      refine Accepts.skip hr ?_ hv
      have : k = -1 := by
        rcases ht with ht | rfl
        · rw [← hk]; exact ht
        · rcases hm with h | ⟨t, h, -⟩
          · exact h
          · cases h
      unfold Rule.reads
      rw [if_pos (show _ = sameNode from hn), hk, this]
      rfl
  | onSide hw hp hn hside ih =>
    obtain ⟨w, h1, h2⟩ := ih
    refine ⟨w, h1, fun v hv => h2 v ?_⟩
    rcases hP _ _ _ hp with ⟨t, h, hs, rfl⟩ | ⟨n, k, rfl, hr, hk, hns, hm⟩
    · simpa [after, repeatState] using hv
    · rw [hns _ rfl] at hside; cases hside
  | side hw hs ih =>
    obtain ⟨w, h1, h2⟩ := ih
    refine ⟨w, ?_, h2⟩
    simpa using spells_append h1 (.side hs .nil)
  | tok hw hp hn ht ih =>
    obtain ⟨w, h1, h2⟩ := ih
    rename_i t r
    rcases hP _ _ _ hp with ⟨t', h, hs, rfl⟩ | ⟨n, k, rfl, hr, hk, hns, hm⟩
    · cases h
      refine ⟨w, by simpa using spells_append h1 (.side hs .nil), fun v hv => h2 v ?_⟩
      simpa [after, repeatState] using hv
    · have hx : ∃ x, Rule.reads r = some x := by
        unfold Rule.reads
        rw [if_pos (show _ = sameNode from hn), if_neg (show ¬ _ = anyToken from ht)]
        split <;> exact ⟨_, rfl⟩
      obtain ⟨x, hx⟩ := hx
      have hm' : (∃ i : Nat, k = i ∧ MatchesAs g upper t i) ∨ (k < 0 ∧ t.type = k) := by
        rcases hm with h | ⟨t', h, hm⟩
        · exact absurd (hk.trans h) ht
        · cases h; exact hm
      refine ⟨w ++ [x], spells_append h1 (.tok (hrel x t n k r hr hk hx hn (hns t rfl) hm') .nil), fun v hv => ?_⟩
      rw [hafter n k _ _ hr] at hv
      rw [List.append_assoc]
      exact h2 _ (Accepts.read hr hx hv)
  | node hw hp hn hf hits ih ihits =>
    obtain ⟨w, h1, h2⟩ := ih
    obtain ⟨u, h3, h4⟩ := ihits
    rename_i r its index first
    rcases hP _ _ _ hp with ⟨t', h, hs, rfl⟩ | ⟨n, k, rfl, hr, hk, hns, hm⟩
    · simp only [sameNode] at hn; omega
    · have h5 := h4 [] .final
      rw [List.append_nil] at h5
      refine ⟨w ++ [.node index], spells_append h1 (.node ⟨first, hf, h5⟩ h3 .nil), fun v hv => ?_⟩
      · rw [hafter n k _ _ hr] at hv
        rw [List.append_assoc]
        refine h2 _ (Accepts.read hr ?_ hv)
        unfold Rule.reads
        rw [hn, if_neg (by unfold sameNode; omega)]
        rfl

theorem slice_length {α : Type} {a x : List α} {lo hi : Int} (h : Go.slice a lo hi = some x) :
    (x.length : Int) = hi - lo ∧ hi ≤ a.length ∧ 0 ≤ lo := by
  unfold Go.slice at h
  split at h
  · cases h
    simp only [List.length_take, List.length_drop]
    omega
  · cases h

/-- A grammar without several rules under one key. -/
theorem findRules_single {g : Grammar} {upper : List Nat → List Nat} (hm : g.tables.multi = []) {tok : Option Token} {s : Int}
    {rules : List Rule} (h : findRules g upper tok s = some rules) : rules.length ≤ 1 := by
  have h1 : ∀ (all rules multi : List Rule) (l : List Int) (rs : List Rule), findKeys all rules [] l = some rs → rs.length ≤ 1 := by
    intro all rules multi l rs
    induction l with
    | nil => intro h; cases h; simp
    | cons k ks ih =>
      intro h
      rw [findKeys] at h
      split at h
      · have := slice_length h; omega
      · split at h
        · cases h
        · rename_i rs' hk
          cases h
          unfold findKey at hk
          dsimp only at hk
          split at hk
          · rw [Option.map_eq_some_iff] at hk
            obtain ⟨x, hx, hk⟩ := hk
            cases hk
            have := slice_length hx
            omega
          · simp at hk
        · exact ih h
  have h2 : ∀ (st : GState) (keys : List Int), findRulesBy g.tables st keys = some rules → rules.length ≤ 1 := by
    intro st keys h
    rw [findRulesBy, Option.bind_eq_some_iff] at h
    obtain ⟨rs, -, h⟩ := h
    rw [Option.bind_eq_some_iff] at h
    obtain ⟨ml, hml, h⟩ := h
    rw [hm] at hml
    have : ml = [] := by
      have := slice_length hml
      simp only [List.length_nil, Int.natCast_zero] at this
      exact List.length_eq_zero_iff.mp (by omega)
    subst this
    exact h1 _ _ [] _ _ h
  rw [findRules, Option.bind_eq_some_iff] at h
  obtain ⟨st, -, h⟩ := h
  cases tok with
  | none =>
    rw [Option.bind_eq_some_iff] at h
    obtain ⟨keys, -, h⟩ := h
    exact h2 st keys h
  | some t =>
    dsimp only at h
    split at h
    · cases h; simp
    · rw [Option.bind_eq_some_iff] at h
      obtain ⟨keys, -, h⟩ := h
      exact h2 st keys h

theorem matches_type {g : Grammar} {upper : List Nat → List Nat} {t : Token} (h : ∀ i, IsLiteral g upper t i → ¬ IsReserved g i) :
    (∃ i : Nat, t.type = i ∧ MatchesAs g upper t i) ∨ (t.type < 0 ∧ t.type = t.type) := by
  by_cases h0 : 0 ≤ t.type
  · exact .inl ⟨t.type.toNat, by omega, .inr ⟨by omega, h⟩⟩
  · exact .inr ⟨by omega, rfl⟩

theorem firstRules_mem {m : Int → List Rule} {keys : List Int} {r : Rule} (h : r ∈ firstRules m keys) : ∃ k ∈ keys, r ∈ m k := by
  unfold firstRules at h
  cases hf : (keys.map m).find? (· ≠ []) with
  | none => rw [hf] at h; simp at h
  | some l =>
    rw [hf] at h
    have := List.mem_of_find?_eq_some hf
    obtain ⟨k, hk, rfl⟩ := List.mem_map.mp this
    exact ⟨k, hk, h⟩

/-- Found rules are usable. -/
theorem findRules_usable {g : Grammar} {upper : List Nat → List Nat} {m : Table} (hm : Means g.tables m)
    (hd : DistinctLiterals g) {tok : Option Token} {s : Int} {rules : List Rule}
    (h : findRules g upper tok s = some rules) {r : Rule} (hr : r ∈ rules) : Usable g upper m tok s r := by
  have hs : ∃ n : Nat, s = n ∧ n < g.tables.states.length := by
    rw [findRules, Option.bind_eq_some_iff] at h
    obtain ⟨st, hst, -⟩ := h
    unfold Go.index at hst
    split at hst
    · rename_i h0
      have := (List.getElem?_eq_some_iff.mp hst).1
      exact ⟨s.toNat, by omega, this⟩
    · cases hst
  obtain ⟨n, rfl, hn⟩ := hs
  cases tok with
  | none =>
    rw [C39_no_token hm n hn] at h
    cases h
    exact .inr ⟨n, anyToken, rfl, hr, hm.token _ _ _ hr, by simp, .inl rfl⟩
  | some t =>
    by_cases hside : g.isSideType t.type = true
    · left
      rw [findRules, Option.bind_eq_some_iff] at h
      obtain ⟨st, hst, h⟩ := h
      dsimp only at h
      rw [if_pos hside] at h
      cases h
      exact ⟨t, rfl, hside, by simpa using hr⟩
    · have hside : g.isSideType t.type = false := by simpa using hside
      right
      have ht : t.type < g.tokens.length := by
        by_contra hge
        rw [findRules, Option.bind_eq_some_iff] at h
        obtain ⟨st, hst, h⟩ := h
        dsimp only at h
        rw [hside, if_neg (by simp), Option.bind_eq_some_iff] at h
        obtain ⟨keys, hk, -⟩ := h
        unfold possibleRuleKeys at hk
        dsimp only at hk
        rw [if_pos (by omega), List.getElem?_eq_none (by omega)] at hk
        cases hk
      have key : ∀ keys, possibleRuleKeys g upper (some t) = some keys → ∃ k ∈ keys, r ∈ m n k := by
        intro keys hk
        rw [findRules_eq hm hk hn hside] at h
        cases h
        exact firstRules_mem hr
      have fin : ∀ k, r ∈ m n k → (k = anyToken ∨ ∃ t', some t = some t' ∧
          ((∃ i : Nat, k = i ∧ MatchesAs g upper t' i) ∨ (k < 0 ∧ t'.type = k))) →
          ∃ (n' : Nat) (k : Int), (n : Int) = n' ∧ r ∈ m n' k ∧ r.token = k ∧
            (∀ t', some t = some t' → g.isSideType t'.type = false) ∧ (k = anyToken ∨ ∃ t', some t = some t' ∧
            ((∃ i : Nat, k = i ∧ MatchesAs g upper t' i) ∨ (k < 0 ∧ t'.type = k))) := by
        intro k hk hc
        exact ⟨n, k, rfl, hk, hm.token _ _ _ hk, by intro t' h; cases h; exact hside, hc⟩
      rcases keys_of (upper := upper) hd t ht with ⟨i, h1, h2, h3⟩ | ⟨i, h1, h2, h3⟩ | ⟨h1, h3⟩
      · obtain ⟨k, hk, hrk⟩ := key _ h3
        simp only [List.mem_cons, List.not_mem_nil, or_false] at hk
        rcases hk with rfl | rfl
        · exact fin _ hrk (.inr ⟨t, rfl, .inl ⟨i, rfl, .inl h1⟩⟩)
        · exact fin _ hrk (.inl rfl)
      · obtain ⟨k, hk, hrk⟩ := key _ h3
        have hnr : ∀ j, IsLiteral g upper t j → ¬ IsReserved g j := by
          intro j hj; rw [← isLiteral_unique hd h1 hj]; exact h2
        simp only [List.mem_cons, List.not_mem_nil, or_false] at hk
        rcases hk with rfl | rfl | rfl
        · exact fin _ hrk (.inr ⟨t, rfl, .inl ⟨i, rfl, .inl h1⟩⟩)
        · exact fin _ hrk (.inr ⟨t, rfl, matches_type hnr⟩)
        · exact fin _ hrk (.inl rfl)
      · obtain ⟨k, hk, hrk⟩ := key _ h3
        simp only [List.mem_cons, List.not_mem_nil, or_false] at hk
        rcases hk with rfl | rfl
        · exact fin _ hrk (.inr ⟨t, rfl, matches_type (fun j hj => absurd hj (h1 j))⟩)
        · exact fin _ hrk (.inl rfl)

/-- Without conflicts there are never rules to apply later. -/
theorem single_inv {env : PEnv σ} (hm : env.g.tables.multi = []) :
    LoopInv env (fun pc _ => pc.applied = []) (fun pc => pc.applied = []) where
  token := by
    intro fuel pc pc' tok node rest hj hs h
    obtain ⟨src, ts, dl, rfl, -⟩ := nextToken_spec h
    exact hj
  step := by
    intro fuel pc pc1 pc2 tok node rest r b hi hs h1 h2
    have h3 : pc1.applied = [] := by
      rw [nextRule, hi] at h1
      obtain ⟨rules, hr, h1⟩ := orPanic_done.mp h1
      have := findRules_single hm hr
      match rules, this, h1 with
      | [], _, h1 => cases h1
      | [x], _, h1 => cases h1; exact hi
    obtain ⟨-, stack, log, last, rfl⟩ := applyRule_spec h2
    cases b <;> exact h3

theorem single_rule {env : PEnv σ} (hm : env.g.tables.multi = []) {fuel : Nat} {pc pc1 : PC σ} {tok : Option Token} {s : Int}
    {r : Rule} (hi : pc.applied = []) (h : nextRule env fuel pc tok s = .done (pc1, some r)) :
    findRules env.g env.upper tok s = some [r] := by
  rw [nextRule, hi] at h
  obtain ⟨rules, hr, h⟩ := orPanic_done.mp h
  have := findRules_single hm hr
  match rules, this, h, hr with
  | [], _, h, _ => cases h
  | [x], _, h, hr => cases h; exact hr

mutual

/-- A word of an expression without `$` has none. -/
theorem lang_noEoi : ∀ (c : Chunk), NoEoi c → ∀ w ∈ lang c, Sym.eoi ∉ w
  | .token t, _, w, hw => by
    rw [lang] at hw
    have : w = [.tok t] := hw
    simp [this]
  | .eoi, h, _, _ => by simp [NoEoi] at h
  | .node i, _, w, hw => by
    rw [lang] at hw
    have : w = [.node i] := hw
    simp [this]
  | .variant cs, h, w, hw => by
    rw [NoEoi] at h
    rw [lang] at hw
    exact langAny_noEoi cs h w hw
  | .group cs opt rep, h, w, hw => by
    rw [NoEoi] at h
    rw [lang] at hw
    split at hw
    · obtain ⟨S, rfl, hS⟩ := Language.mem_kstar.mp hw
      intro hm
      obtain ⟨v, hv, hm⟩ := List.mem_flatten.mp hm
      exact langSeq_noEoi cs h v (hS v hv) hm
    · split at hw
      · rcases (Language.mem_add ..).mp hw with hw | hw
        · rw [Language.mem_one] at hw; simp [hw]
        · exact langSeq_noEoi cs h w hw
      · exact langSeq_noEoi cs h w hw

theorem langAny_noEoi : ∀ (cs : List Chunk), NoEois cs → ∀ w ∈ langAny cs, Sym.eoi ∉ w
  | [], _, w, hw => by rw [langAny] at hw; exact absurd hw (Language.notMem_zero w)
  | c :: cs, h, w, hw => by
    rw [NoEois] at h
    rw [langAny] at hw
    rcases (Language.mem_add ..).mp hw with hw | hw
    · exact lang_noEoi c h.1 w hw
    · exact langAny_noEoi cs h.2 w hw

theorem langSeq_noEoi : ∀ (cs : List Chunk), NoEois cs → ∀ w ∈ langSeq cs, Sym.eoi ∉ w
  | [], _, w, hw => by rw [langSeq, Language.mem_one] at hw; simp [hw]
  | c :: cs, h, w, hw => by
    rw [NoEois] at h
    rw [langSeq] at hw
    obtain ⟨u, hu, v, hv, rfl⟩ := Language.mem_mul.mp hw
    intro hm
    rcases List.mem_append.mp hm with hm | hm
    · exact lang_noEoi c h.1 u hu hm
    · exact langSeq_noEoi cs h.2 v hv hm

end

end Verif.Proof
