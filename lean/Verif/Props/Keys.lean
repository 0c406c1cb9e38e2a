/-
C39: priority of rule keys.
-/
import Verif.Model.Parser
import Verif.Spec.Keys
import Verif.Spec.Rules
import Verif.Props.Tables

namespace Verif.Props

open Verif.Model Verif.Spec Verif.Spec.Ebnf Verif.Proof

theorem literal_some {g : Grammar} {text : List Nat} {i : Nat} (h : g.literal text = some i) :
    ∃ lt, g.tokens[i]? = some lt ∧ lt.flags.literal = true ∧ lt.name = text := by
  have h1 := List.mem_of_getLast? h
  rw [List.mem_filter] at h1
  obtain ⟨-, h2⟩ := h1
  cases hl : g.tokens[i]? with
  | none => simp [hl] at h2
  | some lt => simp [hl] at h2; exact ⟨lt, rfl, h2.1, h2.2⟩

theorem literal_none {g : Grammar} {text : List Nat} (h : g.literal text = none) (i : Nat) (lt : GToken)
    (h1 : g.tokens[i]? = some lt) (h2 : lt.flags.literal = true) : lt.name ≠ text := by
  intro h3
  rw [Grammar.literal, List.getLast?_eq_none_iff] at h
  have : i ∈ ([] : List Nat) := by
    rw [← h, List.mem_filter]
    refine ⟨?_, by simp [h1, h2, h3]⟩
    rw [List.mem_range]; exact (List.getElem?_eq_some_iff.mp h1).1
  simp at this

/-- Keys of a token: the literal, the type unless the literal is reserved, the fallback. -/
theorem keys_of {g : Grammar} {upper : List Nat → List Nat} (hd : DistinctLiterals g) (t : Token)
    (ht : t.type < g.tokens.length) :
    (∃ i, IsLiteral g upper t i ∧ IsReserved g i ∧ possibleRuleKeys g upper (some t) = some [(i : Int), anyToken]) ∨
    (∃ i, IsLiteral g upper t i ∧ ¬ IsReserved g i ∧
      possibleRuleKeys g upper (some t) = some [(i : Int), t.type, anyToken]) ∨
    ((∀ i, ¬ IsLiteral g upper t i) ∧ possibleRuleKeys g upper (some t) = some [t.type, anyToken]) := by
  by_cases h0 : 0 ≤ t.type
  · have hlt : t.type.toNat < g.tokens.length := by omega
    obtain ⟨tt, htt⟩ : ∃ tt, g.tokens[t.type.toNat]? = some tt := ⟨_, List.getElem?_eq_getElem hlt⟩
    simp only [possibleRuleKeys, h0, if_true, htt, Option.map_some, Option.bind_some]
    by_cases hn : tt.flags.noLiterals = true
    · right; right
      simp only [hn, if_true]
      refine ⟨fun i hi => ?_, trivial⟩
      obtain ⟨-, tt', lt, h1, h2, -⟩ := hi
      rw [htt] at h1; cases h1; simp [hn] at h2
    · simp only [hn, Bool.false_eq_true, if_false]
      have hn : tt.flags.noLiterals = false := by simpa using hn
      cases hl : g.literal (if tt.flags.caseless = true then upper t.content else t.content) with
      | none =>
        right; right
        refine ⟨fun i hi => ?_, rfl⟩
        obtain ⟨-, tt', lt, h1, h2, h3, h4, h5⟩ := hi
        rw [htt] at h1; cases h1
        exact literal_none hl i lt h3 h4 h5
      | some i =>
        obtain ⟨lt, h1, h2, h3⟩ := literal_some hl
        have hi : IsLiteral g upper t i := ⟨h0, tt, lt, htt, hn, h1, h2, h3⟩
        simp only [h1, Option.map_some]
        by_cases hr : lt.flags.reserved = true
        · left; exact ⟨i, hi, ⟨lt, h1, hr⟩, by simp [hr]⟩
        · right; left
          refine ⟨i, hi, ?_, by simp [hr]⟩
          rintro ⟨lt', h4, h5⟩
          rw [h1] at h4; cases h4; exact hr h5
  · right; right
    refine ⟨fun i hi => h0 hi.1, ?_⟩
    simp [possibleRuleKeys, h0]

theorem isLiteral_unique {g : Grammar} {upper : List Nat → List Nat} (hd : DistinctLiterals g) {t : Token} {i j : Nat}
    (hi : IsLiteral g upper t i) (hj : IsLiteral g upper t j) : i = j := by
  obtain ⟨-, tt, a, h1, -, h2, h3, h4⟩ := hi
  obtain ⟨-, tt', b, h5, -, h6, h7, h8⟩ := hj
  rw [h1] at h5; cases h5
  exact hd i j a b h2 h6 h3 h7 (by rw [h4, h8])

theorem findRules_eq {g : Grammar} {upper : List Nat → List Nat} {m : Nat → Int → List Rule} (hm : Means g.tables m)
    {t : Token} {keys : List Int} (hk : possibleRuleKeys g upper (some t) = some keys) {s : Nat}
    (hs : s < g.tables.states.length) (hside : g.isSideType t.type = false) :
    findRules g upper (some t) s = some (firstRules (m s) keys) := by
  have h1 := List.getElem?_eq_getElem hs
  rw [findRules]
  have h2 : Go.index g.tables.states s = some g.tables.states[s] := by simp [Go.index, h1]
  rw [h2, Option.bind_some]
  simp only [hside, Bool.false_eq_true, if_false, hk, Option.bind_some]
  exact hm.find s _ h1 keys

/-- C39: the rules found for a token are those of the literal it is; if there are none, those of its type unless the
literal is a reserved word; otherwise the fallback ones. -/
theorem C39_priority {g : Grammar} {upper : List Nat → List Nat} {m : Nat → Int → List Rule} (hm : Means g.tables m)
    (hd : DistinctLiterals g) (t : Token) (ht : t.type < g.tokens.length) (hside : g.isSideType t.type = false)
    (s : Nat) (hs : s < g.tables.states.length) :
    (∀ i : Nat, IsLiteral g upper t i → m s i ≠ [] → findRules g upper (some t) s = some (m s i)) ∧
    ((∀ i : Nat, IsLiteral g upper t i → m s i = [] ∧ ¬ IsReserved g i) → m s t.type ≠ [] →
      findRules g upper (some t) s = some (m s t.type)) ∧
    ((∀ i : Nat, IsLiteral g upper t i → m s i = []) →
      ((∃ i, IsLiteral g upper t i ∧ IsReserved g i) ∨ m s t.type = []) →
      findRules g upper (some t) s = some (m s anyToken)) := by
  have hlast : ∀ l : List Rule, (if l = [] then none else some l).getD [] = l := by
    intro l; by_cases h : l = [] <;> simp [h]
  rcases keys_of (upper := upper) hd t ht with ⟨i, h1, h2, h3⟩ | ⟨i, h1, h2, h3⟩ | ⟨h1, h3⟩
  · rw [findRules_eq hm h3 hs hside]
    refine ⟨fun j hj hne => ?_, fun h4 _ => absurd h2 (h4 i h1).2, fun h4 _ => ?_⟩
    · have := isLiteral_unique hd h1 hj; subst this
      simp [firstRules, hne]
    · by_cases h5 : m s anyToken = [] <;> simp [firstRules, h4 i h1, h5]
  · rw [findRules_eq hm h3 hs hside]
    refine ⟨fun j hj hne => ?_, fun h4 h5 => ?_, fun h4 h5 => ?_⟩
    · have := isLiteral_unique hd h1 hj; subst this
      simp [firstRules, hne]
    · simp [firstRules, (h4 i h1).1, h5]
    · rcases h5 with ⟨j, hj, hr⟩ | h5
      · have := isLiteral_unique hd h1 hj; subst this
        exact absurd hr h2
      · by_cases h6 : m s anyToken = [] <;> simp [firstRules, h4 i h1, h5, h6]
  · rw [findRules_eq hm h3 hs hside]
    refine ⟨fun j hj => absurd hj (h1 j), fun _ h5 => by simp [firstRules, h5], fun _ h5 => ?_⟩
    rcases h5 with ⟨j, hj, -⟩ | h5
    · exact absurd hj (h1 j)
    · by_cases h6 : m s anyToken = [] <;> simp [firstRules, h5, h6]

/-- C39: a token that is a reserved word is never matched as its type. -/
theorem C39_reserved {g : Grammar} {upper : List Nat → List Nat} {m : Nat → Int → List Rule} (hm : Means g.tables m)
    (hd : DistinctLiterals g) (t : Token) (ht : t.type < g.tokens.length) (hside : g.isSideType t.type = false)
    (s : Nat) (hs : s < g.tables.states.length) (i : Nat) (hl : IsLiteral g upper t i) (hr : IsReserved g i) :
    ∃ rs, findRules g upper (some t) s = some rs ∧ ∀ r ∈ rs, r.token = i ∨ r.token = anyToken := by
  obtain ⟨h1, -, h3⟩ := C39_priority (upper := upper) hm hd t ht hside s hs
  by_cases h : m s i = []
  · refine ⟨_, h3 (fun j hj => by rw [← isLiteral_unique hd hl hj]; exact h) (.inl ⟨i, hl, hr⟩), fun r hr => ?_⟩
    exact .inr (hm.token s _ r hr)
  · exact ⟨_, h1 i hl h, fun r hr => .inl (hm.token s _ r hr)⟩

/-- C39: when there is no token, only fallback rules can be used. -/
theorem C39_no_token {g : Grammar} {upper : List Nat → List Nat} {m : Nat → Int → List Rule} (hm : Means g.tables m)
    (s : Nat) (hs : s < g.tables.states.length) : findRules g upper none s = some (m s anyToken) := by
  have h1 := List.getElem?_eq_getElem hs
  have h2 : Go.index g.tables.states s = some g.tables.states[s] := by simp [Go.index, h1]
  rw [findRules, h2, Option.bind_some]
  simp only [possibleRuleKeys, Option.bind_some]
  rw [hm.find s _ h1]
  by_cases h6 : m s anyToken = [] <;> simp [firstRules, h6]

/-- C39: the tables of every compiled grammar satisfy the hypothesis of the theorems above. -/
theorem C39_compiled (ft : Nat → Finset Int) (bodies : List Chunk) (hwf : ∀ c ∈ bodies, WF c) :
    ∃ pr fs t fs', buildNodes ft bodies {} = some (pr, fs) ∧ pr.buildGrammar fs = some (t, fs') ∧
      Means t (pr.dropUnused fs).1.rules := by
  obtain ⟨pr, fs, h1, hg, -⟩ := buildNodes_spec ft bodies hwf ok_empty
  obtain ⟨pr', fs'', t, fs', h2, h3, h4⟩ := C27_compiled ft bodies hwf
  rw [h1] at h2; cases h2
  refine ⟨pr, fs, t, fs', h1, h3, fun s gs hs keys => ?_, fun s k r hr => ?_⟩
  · obtain ⟨gs', h5, h6⟩ := h4 s (List.getElem?_eq_some_iff.mp hs).1
    rw [hs] at h5; cases h5
    exact h6 keys
  · exact (dropUnused_ok (firsts := fs) hg.ok).tok s k r hr

/-- `$name = /…/` (caseless), literals "IF" (reserved) and "ON"; one state with rules for both literals, the name and a
fallback, one with rules for the name and a fallback. -/
def sampleKeys : Grammar :=
  { tokens := [⟨[110], some [], 0, { caseless := true }⟩, ⟨[73, 70], none, 0, { literal := true, reserved := true }⟩,
      ⟨[79, 78], none, 0, { literal := true }⟩]
    firsts := [0]
    tables := {
      states := [⟨1, 0, 0, 0, 4⟩, ⟨1, 0, 0, 4, 6⟩]
      rules := [⟨-1, 1, -1⟩, ⟨0, 1, -1⟩, ⟨1, 1, -1⟩, ⟨2, 1, -1⟩, ⟨-1, -1, -1⟩, ⟨0, 1, -1⟩] } }

/-- Upper-casing of ASCII texts. -/
def asciiUpper (l : List Nat) : List Nat := l.map fun c => if 97 ≤ c ∧ c ≤ 122 then c - 32 else c

example : findRules sampleKeys asciiUpper (some ⟨0, "n", [105, 102], ⟨none, 0⟩⟩) 0 = some [⟨1, 1, -1⟩] ∧
    findRules sampleKeys asciiUpper (some ⟨0, "n", [105, 102], ⟨none, 0⟩⟩) 1 = some [⟨-1, -1, -1⟩] ∧
    findRules sampleKeys asciiUpper (some ⟨0, "n", [111, 110], ⟨none, 0⟩⟩) 1 = some [⟨0, 1, -1⟩] ∧
    findRules sampleKeys asciiUpper none 0 = some [⟨-1, 1, -1⟩] := by decide +kernel

/-- Rules of the sample states. -/
def sampleKeyRules (s : Nat) (k : Int) : List Rule :=
  if s = 0 then (if -1 ≤ k ∧ k ≤ 2 then [⟨k, 1, -1⟩] else [])
  else if s = 1 then (if k = -1 then [⟨-1, -1, -1⟩] else if k = 0 then [⟨0, 1, -1⟩] else []) else []

example : DistinctLiterals sampleKeys ∧ IsLiteral sampleKeys asciiUpper ⟨0, "n", [105, 102], ⟨none, 0⟩⟩ 1 ∧
    IsReserved sampleKeys 1 := by
  refine ⟨?_, ⟨by decide, _, _, rfl, rfl, rfl, rfl, by decide⟩, ⟨_, rfl, rfl⟩⟩
  intro i j a b hi hj
  match i, j with
  | 0, _ => cases hi; simp
  | 1, 0 => cases hj; simp
  | 1, 1 => simp
  | 1, 2 => cases hi; cases hj; simp
  | 2, 0 => cases hj; simp
  | 2, 1 => cases hi; cases hj; simp
  | 2, 2 => simp
  | n + 3, _ => simp [sampleKeys] at hi
  | 1, n + 3 => simp [sampleKeys] at hj
  | 2, n + 3 => simp [sampleKeys] at hj

end Verif.Props
