/-
C40: expected token types of states.
-/
import Verif.Proof.Types
import Verif.Props.Samples
import Verif.Props.Keys

namespace Verif.Props

open Verif.Model Verif.Spec Verif.Spec.Ebnf Verif.Proof

/-- Order of tokens: types with regular expressions, other types, literals. -/
structure Layout (ts : List GToken) (a b c : List GToken) : Prop where
  eq : ts = a ++ b ++ c
  re : ∀ t ∈ a, t.re.isSome = true ∧ t.flags.literal = false
  ext : ∀ t ∈ b, t.re = none ∧ t.flags.literal = false
  lit : ∀ t ∈ c, t.re = none ∧ t.flags.literal = true

/-- The regular expression of the type of token `t` matches the whole text of the token. -/
def Fetched (find : Nat → List Nat → List Nat) (ts : List GToken) (t : Token) : Prop :=
  0 ≤ t.type ∧ (∃ tt, ts[t.type.toNat]? = some tt ∧ tt.re.isSome = true) ∧ find t.type.toNat t.content = t.content

theorem takeWhile_append_all {α : Type} {p : α → Bool} {a b : List α} (ha : ∀ x ∈ a, p x = true) (hb : ∀ x ∈ b.head?, p x = false) :
    ((a ++ b).takeWhile p).length = a.length := by
  induction a with
  | nil =>
    cases b with
    | nil => rfl
    | cons x b => simp [hb x (by simp)]
  | cons x a ih => simp [ha x (by simp), ih (fun y hy => ha y (by simp [hy]))]

theorem Layout.reCount {ts a b c : List GToken} (h : Layout ts a b c) : reCount ts = a.length := by
  unfold Model.reCount
  rw [h.eq, List.append_assoc]
  refine takeWhile_append_all (fun t ht => (h.re t ht).1) (fun t ht => ?_)
  have ht : t ∈ b ++ c := List.mem_of_mem_head? ht
  rcases List.mem_append.mp ht with ht | ht
  · rw [(h.ext t ht).1]; rfl
  · rw [(h.lit t ht).1]; rfl

theorem Layout.literalStart {ts a b c : List GToken} (h : Layout ts a b c) : literalStart ts = a.length + b.length := by
  unfold Model.literalStart
  rw [h.reCount]
  have : ts.drop a.length = b ++ c := by rw [h.eq, List.append_assoc, List.drop_left]
  rw [this, takeWhile_append_all]
  · intro t ht; simp [(h.ext t ht).2]
  · intro t ht
    simp [(h.lit t (List.mem_of_mem_head? ht)).2]

/-- What may be fetched when key `k` is expected: the type itself or types of the literal. -/
def Provides (upper : List Nat → List Nat) (find : Nat → List Nat → List Nat) (ts : List GToken) (k j : Nat) : Prop :=
  ∃ kt, ts[k]? = some kt ∧ if kt.flags.literal = true then
    ∃ rt, ts[j]? = some rt ∧ rt.re.isSome = true ∧ rt.flags.noLiterals = false ∧
      (rt.flags.caseless = true → kt.name = upper kt.name) ∧ find j kt.name = kt.name
  else j = k

theorem ttypes_get {upper : List Nat → List Nat} {find : Nat → List Nat → List Nat} {ts a b c : List GToken} (h : Layout ts a b c)
    {ttypes : List (BitVec 64)} (ht : assignTokenTypes upper find ts = .ok ttypes) {k j : Nat} (hj : j < 64) :
    (∃ x, ttypes[k]? = some x ∧ x.getLsbD j = true) ↔ Provides upper find ts k j := by
  unfold assignTokenTypes at ht
  split at ht
  · cases ht
  · cases ht
    rw [h.literalStart]
    have hlen : ts.length = a.length + b.length + c.length := by rw [h.eq]; simp; omega
    by_cases hk : k < a.length + b.length
    · rw [List.getElem?_append_left (by simpa using hk), List.getElem?_map, List.getElem?_range hk]
      simp only [Option.map_some, Option.some.injEq, exists_eq_left', bit_get hj]
      have hmem : ∃ kt, ts[k]? = some kt ∧ kt.flags.literal = false := by
        have hk' : k < (a ++ b).length := by simpa using hk
        refine ⟨(a ++ b)[k], ?_, ?_⟩
        · rw [h.eq, List.getElem?_append_left hk', List.getElem?_eq_getElem hk']
        · rcases List.mem_append.mp (List.getElem_mem hk') with hm | hm
          · exact (h.re _ hm).2
          · exact (h.ext _ hm).2
      obtain ⟨kt, h1, h2⟩ := hmem
      constructor
      · rintro rfl
        exact ⟨kt, h1, by simp [h2]⟩
      · rintro ⟨kt', h3, h4⟩
        rw [h1] at h3; cases h3
        simp only [h2, Bool.false_eq_true, if_false] at h4
        exact h4.symm
    · rw [List.getElem?_append_right (by simpa using hk), List.getElem?_map, List.length_map, List.length_range,
        List.getElem?_drop]
      have : a.length + b.length + (k - (a.length + b.length)) = k := by omega
      rw [this]
      constructor
      · rintro ⟨x, h1, h2⟩
        rw [Option.map_eq_some_iff] at h1
        obtain ⟨lt, h3, rfl⟩ := h1
        rw [literalTypes_get hj, h.reCount] at h2
        obtain ⟨h4, rt, h5, h6, h7, h8⟩ := h2
        have hl : lt.flags.literal = true := by
          rw [h.eq, List.getElem?_append_right (by simpa using hk)] at h3
          exact (h.lit _ (List.mem_of_getElem? h3)).2
        have hr : rt.re.isSome = true := by
          rw [h.eq, List.append_assoc, List.getElem?_append_left h4] at h5
          exact (h.re _ (List.mem_of_getElem? h5)).1
        exact ⟨lt, h3, by rw [if_pos hl]; exact ⟨rt, h5, hr, h6, h7, h8⟩⟩
      · rintro ⟨lt, h3, h4⟩
        have hl : lt.flags.literal = true := by
          rw [h.eq, List.getElem?_append_right (by simpa using hk)] at h3
          exact (h.lit _ (List.mem_of_getElem? h3)).2
        rw [if_pos hl] at h4
        obtain ⟨rt, h5, h6, h7⟩ := h4
        refine ⟨_, by rw [h3]; rfl, ?_⟩
        rw [literalTypes_get hj, h.reCount]
        refine ⟨?_, rt, h5, h7⟩
        by_contra hge
        have h8 : rt ∈ b ++ c := by
          rw [h.eq, List.append_assoc, List.getElem?_append_right (by omega)] at h5
          exact List.mem_of_getElem? h5
        rcases List.mem_append.mp h8 with hm | hm
        · rw [(h.ext _ hm).1] at h6; cases h6
        · rw [(h.lit _ hm).1] at h6; cases h6

/-- C40: the token types expected in a state of a compiled grammar are exactly side types and types provided by keys that
have rules in this state. -/
theorem C40_types_exact {upper : List Nat → List Nat} {find : Nat → List Nat → List Nat} {ts a b c : List GToken}
    {defs : List (Option Chunk)} {order1 order2 order3 : List Nat} {fuel : Nat} {g : Grammar}
    (hc : compile upper find ts defs order1 order2 order3 fuel = .done (.ok g)) (hwf : ∀ c, some c ∈ defs → WF c)
    (hlay : Layout ts a b c) {m : Nat → Int → List Rule} (hm : Means g.tables m) {s : Nat} {gs : GState}
    (hs : g.tables.states[s]? = some gs) {j : Nat} (hj : j < 64) :
    gs.types.getLsbD j = true ↔ (∃ t, ts[j]? = some t ∧ t.flags.side = true) ∨
      ∃ k : Nat, m s k ≠ [] ∧ Provides upper find ts k j := by
  obtain ⟨ttypes, ft, pr, fs, pr', htt, -, -, -, hb, -, has, hg, -⟩ := compile_steps hc
  have hwf' : ∀ c ∈ defs.filterMap id, WF c := by
    intro c hc
    obtain ⟨d, hd, h⟩ := List.mem_filterMap.mp hc
    simp only [id] at h; subst h
    exact hwf c hd
  obtain ⟨pr2, fs2, hb2, hgr, -⟩ := buildNodes_spec ft _ hwf' ok_empty
  rw [hb] at hb2; cases hb2
  obtain ⟨hre, htypes⟩ := assignStateTypes_spec fs has
  have hok' := hre.ok hgr.ok
  obtain ⟨hmeans, -, -, hst⟩ := buildGrammar_means hok' hg
  obtain ⟨e, he, het⟩ := hst s gs hs
  obtain ⟨i, e0, h0, h1, h2⟩ := dropUnused_entry he
  have hne : defs.filterMap id ≠ [] := by
    intro hnil
    rw [hnil] at hb
    cases hb
    have := hre.len
    simp only [List.length_nil] at this
    rw [List.length_eq_zero_iff.mp this] at h0
    simp at h0
  have hhead := buildNodes_head hb hne
  have h3 := (htypes i e0 h0).2.2 _ hhead (by simp)
  have hms : ∀ k, m s k = (pr'.dropUnused fs).1.rules s k := by
    intro k
    have h5 := hm.find s gs hs [k]
    rw [hmeans.find s gs hs [k]] at h5
    have hone : ∀ f : Int → List Rule, firstRules f [k] = f k := by
      intro f
      by_cases h : f k = [] <;> simp [firstRules, h]
    rw [hone, hone] at h5
    exact (Option.some.inj h5).symm
  have hkeys : ∀ k, k ∈ e0.keys ↔ m s k ≠ [] := by
    intro k
    rw [hms, ← h2, (dropUnused_ok (firsts := fs) hok').keys s e k he, PR.rules, he]
  rw [het, h1, stateTypes_get h3, sideTypes_get hj]
  constructor
  · rintro (h | ⟨k, hk, h0, h⟩)
    · exact .inl h
    · refine .inr ⟨k.toNat, ?_, (ttypes_get hlay htt hj).mp h⟩
      rw [Int.toNat_of_nonneg h0]
      exact (hkeys k).mp hk
  · rintro (h | ⟨k, hk, h⟩)
    · exact .inl h
    · exact .inr ⟨k, (hkeys k).mpr hk, by omega, (ttypes_get hlay htt hj).mpr h⟩

/-- C40, partial: the token types expected in a state include all side types and every type under which a token acceptable
in that state can be fetched. Missing: caseless types whose regular expression matches some text but not its upper-case
form, for which it is false (see below). There are fewer than 64 types (larger descriptions are rejected). -/
theorem C40_expected_types_partial {upper : List Nat → List Nat} {find : Nat → List Nat → List Nat} {ts a b c : List GToken}
    {defs : List (Option Chunk)} {order1 order2 order3 : List Nat} {fuel : Nat} {g : Grammar}
    (hc : compile upper find ts defs order1 order2 order3 fuel = .done (.ok g)) (hwf : ∀ c, some c ∈ defs → WF c)
    (hlay : Layout ts a b c) (hlen : a.length + b.length ≤ 64) (hup : ∀ l, upper (upper l) = upper l)
    (hcase : ∀ (j : Nat) (rt : GToken) l, ts[j]? = some rt → rt.re.isSome = true → rt.flags.caseless = true → find j l = l →
      find j (upper l) = upper l)
    {m : Nat → Int → List Rule} (hm : Means g.tables m) {s : Nat} {gs : GState} (hs : g.tables.states[s]? = some gs) :
    (∀ (j : Nat) t, j < a.length + b.length → ts[j]? = some t → t.flags.side = true → gs.types.getLsbD j = true) ∧
    ∀ (t : Token) (k : Nat), Fetched find ts t → MatchesAs g upper t k → m s k ≠ [] →
      gs.types.getLsbD t.type.toNat = true := by
  refine ⟨fun j t hj h1 h2 => ?_, fun t k hf hk hne => ?_⟩
  · exact (C40_types_exact hc hwf hlay hm hs (by omega)).mpr (.inl ⟨t, h1, h2⟩)
  · obtain ⟨h0, ⟨tt, h1, h2⟩, h3⟩ := hf
    have htok : g.tokens = ts := by obtain ⟨_, _, _, _, _, -, -, -, -, -, -, -, -, h⟩ := compile_steps hc; exact h
    have hj : t.type.toNat < a.length := by
      by_contra hge
      have h8 : tt ∈ b ++ c := by
        rw [hlay.eq, List.append_assoc, List.getElem?_append_right (by omega)] at h1
        exact List.mem_of_getElem? h1
      rcases List.mem_append.mp h8 with hm | hm
      · rw [(hlay.ext _ hm).1] at h2; cases h2
      · rw [(hlay.lit _ hm).1] at h2; cases h2
    refine (C40_types_exact hc hwf hlay hm hs (by omega)).mpr (.inr ⟨k, hne, ?_⟩)
    rcases hk with ⟨-, tt', lt, h4, h5, h6, h7, h8⟩ | ⟨h4, -⟩
    · rw [htok] at h4 h6
      rw [h1] at h4; cases h4
      refine ⟨lt, h6, ?_⟩
      rw [if_pos h7]
      refine ⟨tt, h1, h2, h5, fun hcl => ?_, ?_⟩
      · rw [h8, if_pos hcl, hup]
      · by_cases hcl : tt.flags.caseless = true
        · rw [h8, if_pos hcl]
          exact hcase _ tt _ h1 h2 hcl h3
        · rw [h8, if_neg hcl]; exact h3
    · have hk : t.type.toNat = k := by omega
      subst hk
      refine ⟨tt, h1, ?_⟩
      have hl : tt.flags.literal = false := by
        rw [hlay.eq, List.append_assoc, List.getElem?_append_left hj] at h1
        exact (hlay.re _ (List.mem_of_getElem? h1)).2
      simp [hl]

/-- `root = {$d}, 'x', ['1'], $n`. -/
def sampleTyped : List Chunk := [cSeq [cRep [.token 1], cX, cOpt [.token 5], .token 0]]

/-- The hypotheses of the theorems hold for the sample grammar; types expected in its states (letters 1, digits 2, spaces
4). -/
example : Layout sampleTokens (sampleTokens.take 3) [] (sampleTokens.drop 3) ∧
    (∀ c, some c ∈ sampleTyped.map some → WF c) ∧
    (∀ l, id (id l) = (id l : List Nat)) ∧
    (match sampleCompile sampleTyped with
    | .done (.ok g) => decide (g.tables.states.map (·.types) = [7, 7, 5])
    | _ => false) = true := by
  refine ⟨⟨by decide, by decide, by decide, by decide⟩, ?_, fun l => rfl, by decide +kernel⟩
  simp [sampleTyped, cSeq, cRep, cOpt, cX, WF, WFs]

/-- `!caseless $a; $a = /[a-z]+/; $b = /[A-Z]+/; root = 'FOO';` -/
def caselessTokens : List GToken :=
  [⟨[97], some [], 0, { caseless := true }⟩, ⟨[98], some [], 0, {}⟩, ⟨[70, 79, 79], none, 0, { literal := true }⟩]

/-- Regular expressions of these tokens. -/
def caselessFind (j : Nat) (l : List Nat) : List Nat :=
  l.takeWhile fun c => if j = 0 then decide (97 ≤ c ∧ c ≤ 122) else decide (65 ≤ c ∧ c ≤ 90)

/-- C40 is false in general: the state expects only type `$b`, though a token `foo` of type `$a` is accepted in it (being
the literal 'FOO'). -/
theorem C40_caseless_type_hidden :
    ∃ g gs, compile asciiUpper caselessFind caselessTokens [some (cSeq [.token 2])] [0] [0] [0] 10 = .done (.ok g) ∧
      g.tables.states[0]? = some gs ∧ gs.types.getLsbD 0 = false ∧
      Fetched caselessFind caselessTokens ⟨0, "", [102, 111, 111], ⟨none, 0⟩⟩ ∧
      findRules g asciiUpper (some ⟨0, "", [102, 111, 111], ⟨none, 0⟩⟩) 0 = some [⟨2, -1, -1⟩] := by
  have h : (match compile asciiUpper caselessFind caselessTokens [some (cSeq [.token 2])] [0] [0] [0] 10 with
      | .done (.ok g) => match g.tables.states[0]? with
        | some gs => decide (gs.types.getLsbD 0 = false ∧
          findRules g asciiUpper (some ⟨0, "", [102, 111, 111], ⟨none, 0⟩⟩) 0 = some [⟨2, -1, -1⟩])
        | none => false
      | _ => false) = true := by decide +kernel
  split at h
  · rename_i g hg
    split at h
    · rename_i gs hgs
      simp only [decide_eq_true_eq] at h
      refine ⟨g, gs, hg, hgs, h.1, ⟨by decide, ⟨_, rfl, rfl⟩, by decide⟩, h.2⟩
    · cases h
  · cases h

end Verif.Props
