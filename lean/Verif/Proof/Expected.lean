/-
Lemmas about reported expected tokens and the end of input.
-/
import Verif.Proof.CompileMeans
import Verif.Proof.Reread
import Verif.Model.Parser
import Verif.Spec.Scan

namespace Verif.Proof

open Verif.Model Verif.Spec Verif.Spec.Ebnf Verif.Spec.Lex Verif.Model.Lexer
open Verif.Model.Tree (bindRun)

/-- Tables of a compiled grammar describe what they mean. -/
theorem compiled_desc {upper : List Nat → List Nat} {find : Nat → List Nat → List Nat} {ts : List GToken}
    {defs : List (Option Chunk)} {order1 order2 order3 : List Nat} {fuel : Nat} {g : Grammar}
    (hc : compile upper find ts defs order1 order2 order3 fuel = .done (.ok g)) (hwf : ∀ c, some c ∈ defs → WF c)
    {m : Nat → Int → List Rule} (hm : Means g.tables m) {s : Nat} {gs : GState} (hs : g.tables.states[s]? = some gs) :
    ∃ keys, Keyed keys (m s) ∧ Desc g.tables gs keys (m s) := by
  obtain ⟨ttypes, ft, pr, fs, pr', htt, -, -, -, hb, -, has, hg, -⟩ := compile_steps hc
  have hwf' : ∀ c ∈ defs.filterMap id, WF c := by
    intro c hc
    obtain ⟨d, hd, h⟩ := List.mem_filterMap.mp hc
    simp only [id] at h; subst h
    exact hwf c hd
  obtain ⟨pr2, fs2, hb2, hgr, -⟩ := buildNodes_spec ft _ hwf' ok_empty
  rw [hb] at hb2; cases hb2
  obtain ⟨hre, -⟩ := assignStateTypes_spec fs has
  have hok' := dropUnused_ok (firsts := fs) (hre.ok hgr.ok)
  have hk := Verif.Props.ok_keys hok'
  have hk' : ∀ e ∈ (pr'.dropUnused fs).1.states, Keyed e.keys ((pr'.dropUnused fs).1.slot e) :=
    fun e he => ⟨hk.1 e he, hk.2 e he⟩
  obtain ⟨t, gss, h1, h2, -, -, h5⟩ := buildTables_spec _ (pr'.dropUnused fs).1.states {} hk'
  unfold PR.buildGrammar at hg
  dsimp only at hg
  rw [h1] at hg
  have ht : g.tables = t := by
    have := Option.some.inj hg
    exact ((Prod.mk.inj this).1).symm
  have h2 : t.states = gss := by simpa using h2
  rw [ht, h2] at hs
  have hlt := (List.getElem?_eq_some_iff.mp hs).1
  have hlt2 : s < (pr'.dropUnused fs).1.states.length := by rw [h5.length_eq]; exact hlt
  obtain ⟨-, h7⟩ := List.Forall₂.get h5 hlt2 hlt
  simp only [List.get_eq_getElem, (List.getElem?_eq_some_iff.mp hs).2] at h7
  set e := (pr'.dropUnused fs).1.states[s] with he
  have hkey := hk' e (List.getElem_mem _)
  have hms : m s = (pr'.dropUnused fs).1.slot e := by
    funext k
    have h8 := hm.find s gs (by rw [ht, h2]; exact hs) [k]
    rw [ht, findRulesBy_spec hkey h7] at h8
    have hone : ∀ f : Int → List Rule, firstRules f [k] = f k := by
      intro f
      by_cases h : f k = [] <;> simp [firstRules, h]
    rw [Verif.Props.firstWith_eq, hone, hone] at h8
    exact (Option.some.inj h8).symm
  rw [hms, ht]
  exact ⟨e.keys, hkey, h7⟩

theorem slice_head {α : Type} {l x : List α} {lo hi : Nat} (h : Go.slice l lo hi = some x) :
    x.length = hi - lo ∧ lo ≤ hi ∧ ∀ i, i < hi - lo → l[lo + i]? = x[i]? := by
  unfold Go.slice at h
  split at h
  · rename_i hc
    cases h
    refine ⟨by simp; omega, by omega, ?_⟩
    intro i hi
    rw [List.getElem?_take, List.getElem?_drop]
    rw [if_pos (by omega)]
    simp
  · cases h

/-- The reported token is the least of keys of the state. -/
theorem expected_least {g : Grammar} {gs : GState} {keys : Finset Int} {get : Int → List Rule} (hk : Keyed keys get)
    (hd : Desc g.tables gs keys get) (hlen : ∀ k, get k ≠ [] → k < g.tokens.length)
    (hneg : ∀ k < 0, get k ≠ [] → k = -3 ∧ (get k).length = 1) (hex : ∃ k : Nat, (get k).length = 1) :
    ∃ k : Nat, getExpectedToken g gs = some k ∧ get k ≠ [] ∧ ∀ j : Nat, get j ≠ [] → k ≤ j := by
  obtain ⟨rs, ms, a, b, c, d, e, f⟩ := hd
  obtain ⟨k0, hk0⟩ := hex
  have hr : ∀ key, key ∈ rs.map (·.token) ↔ get key ≠ [] ∧ ¬ (get key).length > 1 := by
    intro key
    rw [c, rKeys, mem_sorted, Finset.mem_filter, hk.some]
  have hm : ∀ key, key ∈ ms.map (·.token) ↔ get key ≠ [] ∧ (get key).length > 1 := by
    intro key
    rw [e, mKeys, mem_sorted, Finset.mem_filter, hk.some]
  have hsr : (rs.map (·.token)).Pairwise (· < ·) := by rw [c]; exact (sorted_sortedLT _).pairwise
  have hsm : (ms.map (·.token)).Pairwise (· < ·) := by rw [e]; exact (sorted_sortedLT _).pairwise
  obtain ⟨r1, r2, r3⟩ := slice_head a
  obtain ⟨m1, m2, m3⟩ := slice_head b
  have hin : (k0 : Int) ∈ rs.map (·.token) := (hr _).2 ⟨by intro h; rw [h] at hk0; simp at hk0, by omega⟩
  -- the least single key
  have h1 : ∃ i : Nat, (if gs.highRule > gs.lowRule then
      (g.tables.rules[gs.lowRule]?).bind fun r =>
        if r.token < 0 ∧ gs.highRule > gs.lowRule + 1 then (g.tables.rules[gs.lowRule + 1]?).map (·.token)
        else some r.token
      else some 0) = some (i : Int) ∧ (i : Int) ∈ rs.map (·.token) ∧ ∀ j : Nat, (j : Int) ∈ rs.map (·.token) → i ≤ j := by
    cases rs with
    | nil => simp at hin
    | cons x rs =>
      simp only [List.length_cons] at r1
      rw [if_pos (by omega)]
      have e0 := r3 0 (by omega)
      simp only [Nat.add_zero, List.getElem?_cons_zero] at e0
      rw [e0, Option.bind_some]
      rw [List.map_cons, List.pairwise_cons] at hsr
      by_cases hx : x.token < 0
      · cases rs with
        | nil =>
          exfalso
          simp at hin
          omega
        | cons y rs =>
          simp only [List.length_cons] at r1
          have e1 := r3 1 (by omega)
          simp only [List.getElem?_cons_succ, List.getElem?_cons_zero] at e1
          rw [if_pos ⟨hx, by omega⟩, e1, Option.map_some]
          have hy : 0 ≤ y.token := by
            by_contra hy
            have h2 := ((hr x.token).1 (by simp)).1
            have h3 := ((hr y.token).1 (by simp)).1
            have := (hneg _ hx h2).1
            have := (hneg _ (by omega) h3).1
            have := hsr.1 y.token (by simp)
            omega
          refine ⟨y.token.toNat, by rw [Int.toNat_of_nonneg hy], by rw [Int.toNat_of_nonneg hy]; simp, ?_⟩
          intro j hj
          rw [List.map_cons, List.map_cons] at hj
          rcases List.mem_cons.1 hj with hj | hj
          · omega
          · rcases List.mem_cons.1 hj with hj | hj
            · omega
            · have h4 := hsr.2
              rw [List.map_cons, List.pairwise_cons] at h4
              have := h4.1 _ hj
              omega
      · rw [if_neg (by omega)]
        refine ⟨x.token.toNat, by rw [Int.toNat_of_nonneg (by omega)], by rw [Int.toNat_of_nonneg (by omega)]; simp, ?_⟩
        intro j hj
        rw [List.map_cons] at hj
        rcases List.mem_cons.1 hj with hj | hj
        · omega
        · have := hsr.1 _ hj
          omega
  obtain ⟨i, h1, h2, h3⟩ := h1
  have h4 : ∃ k : Nat, (if gs.highMulti > gs.lowMulti then
      (g.tables.multi[gs.lowMulti]?).map fun m => if m.token < (i : Int) then m.token else (i : Int)
      else some (i : Int)) = some (k : Int) ∧ get k ≠ [] ∧ ∀ j : Nat, get j ≠ [] → k ≤ j := by
    cases ms with
    | nil =>
      simp only [List.length_nil] at m1
      rw [if_neg (by omega)]
      refine ⟨i, rfl, ((hr _).1 h2).1, ?_⟩
      intro j hj
      by_cases hl : (get j).length > 1
      · exact absurd ((hm j).2 ⟨hj, hl⟩) (by simp)
      · exact h3 j ((hr j).2 ⟨hj, hl⟩)
    | cons x ms =>
      simp only [List.length_cons] at m1
      rw [if_pos (by omega)]
      have e0 := m3 0 (by omega)
      simp only [Nat.add_zero, List.getElem?_cons_zero] at e0
      rw [e0, Option.map_some]
      rw [List.map_cons, List.pairwise_cons] at hsm
      have hx : 0 ≤ x.token := by
        by_contra hx
        have h5 := (hm x.token).1 (by simp)
        have := (hneg _ (by omega) h5.1).2
        omega
      have hxl : ∀ j : Nat, (j : Int) ∈ (x :: ms).map (·.token) → x.token ≤ j := by
        intro j hj
        rw [List.map_cons] at hj
        rcases List.mem_cons.1 hj with hj | hj
        · omega
        · have := hsm.1 _ hj
          omega
      by_cases hlt : x.token < (i : Int)
      · rw [if_pos hlt]
        refine ⟨x.token.toNat, by rw [Int.toNat_of_nonneg hx], ?_, ?_⟩
        · rw [Int.toNat_of_nonneg hx]
          exact ((hm x.token).1 (by simp)).1
        · intro j hj
          by_cases hl : (get j).length > 1
          · have := hxl j ((hm j).2 ⟨hj, hl⟩); omega
          · have := h3 j ((hr j).2 ⟨hj, hl⟩); omega
      · rw [if_neg hlt]
        refine ⟨i, rfl, ((hr _).1 h2).1, ?_⟩
        intro j hj
        by_cases hl : (get j).length > 1
        · have := hxl j ((hm j).2 ⟨hj, hl⟩); omega
        · exact h3 j ((hr j).2 ⟨hj, hl⟩)
  obtain ⟨k, h5, h6, h7⟩ := h4
  refine ⟨k, ?_, h6, h7⟩
  unfold getExpectedToken
  rw [h1, Option.bind_some, h5, Option.bind_some]
  have := hlen k h6
  have hk : Go.index g.tokens (k : Int) = some (g.tokens[k]'(by omega)) := by
    unfold Go.index
    rw [if_pos (by omega)]
    simp
  rw [hk]
  simp

/-! ### The end of input -/

/-- Some lexer has a token of a requested type. -/
def AnyRequested (defs : List LexDef) (tts : TokenTypeSet) : Prop :=
  ∃ x ∈ defs, ∃ k t, groupType x.2 k = some t ∧ Requested tts t.1

theorem fetch_eoi_iff {tts : TokenTypeSet} {fuel : Nat} (defs : List LexDef) {q : SrcQueue} (h : SrcQueue.Rep q [])
    {err : Option LlxError} (he : err = none) :
    (AnyRequested defs tts → fetchLoop tts (fuel + 1) (lexersOf defs) q err = .done (q, .ok (some eoiToken))) ∧
    (¬ AnyRequested defs tts → fetchLoop tts (fuel + 1) (lexersOf defs) q err = .done (q, .ok none)) := by
  subst he
  induction defs with
  | nil =>
    refine ⟨?_, fun _ => rfl⟩
    rintro ⟨x, hx, -⟩
    simp at hx
  | cons x defs ih =>
    have hl : lexersOf (x :: defs) = Lexer.new x.1 x.2 :: lexersOf defs := rfl
    rw [hl, fetchLoop]
    by_cases hz : tts &&& (Lexer.new x.1 x.2).typeMask = 0
    · have h1 : (Lexer.new x.1 x.2).nextOf (fuel + 1) q tts = .done (q, .ok none) := by
        rw [Lexer.nextOf, if_pos hz]
      rw [h1]
      have h2 := (mask_zero_iff x.1 x.2 tts).1 hz
      have h3 : AnyRequested (x :: defs) tts ↔ AnyRequested defs tts := by
        constructor
        · rintro ⟨y, hy, k, t, h4, h5⟩
          rcases List.mem_cons.1 hy with rfl | hy
          · exact absurd h5 (h2 k t h4)
          · exact ⟨y, hy, k, t, h4, h5⟩
        · rintro ⟨y, hy, h4⟩
          exact ⟨y, by simp [hy], h4⟩
      rw [h3]
      exact ih
    · have h1 : (Lexer.new x.1 x.2).nextOf (fuel + 1) q tts = .done (q, .ok (some eoiToken)) := by
        rw [Lexer.nextOf, if_neg hz]
        exact nextOfLoop_eoi _ _ h fuel
      rw [h1]
      refine ⟨fun _ => rfl, fun hn => ?_⟩
      exfalso
      apply hz
      rw [mask_zero_iff]
      intro k t hk hr
      exact hn ⟨x, by simp, k, t, hk, hr⟩

theorem fetch_end {tts : TokenTypeSet} {fuel : Nat} (defs : List LexDef) (hd : ∀ x ∈ defs, ReOk x.1) {q : SrcQueue} {src : Src}
    {p : Nat} {rest : SrcList.State Src} (h : Holds q ((src, p) :: rest)) (hp : p = src.content.length)
    (hr : AnyRequested defs tts) :
    ∃ q', fetchLoop tts (fuel + 1) (lexersOf defs) q none = .done (q', .ok (some (endOf src))) ∧ Holds q' rest := by
  induction defs with
  | nil =>
    obtain ⟨x, hx, -⟩ := hr
    simp at hx
  | cons x defs ih =>
    have hl : lexersOf (x :: defs) = Lexer.new x.1 x.2 :: lexersOf defs := rfl
    rw [hl, fetchLoop]
    by_cases hz : tts &&& (Lexer.new x.1 x.2).typeMask = 0
    · have h1 : (Lexer.new x.1 x.2).nextOf (fuel + 1) q tts = .done (q, .ok none) := by
        rw [Lexer.nextOf, if_pos hz]
      rw [h1]
      have h2 := (mask_zero_iff x.1 x.2 tts).1 hz
      refine ih (fun y hy => hd y (by simp [hy])) ?_
      obtain ⟨y, hy, k, t, h4, h5⟩ := hr
      rcases List.mem_cons.1 hy with rfl | hy
      · exact absurd h5 (h2 k t h4)
      · exact ⟨y, hy, k, t, h4, h5⟩
    · obtain ⟨q', l', r, h1, h2, h3⟩ := loop_total (hd x (by simp)) x.2 tts h
      have h4 := h1 (fuel + 1) (by simp [bound]; omega)
      obtain ⟨p0, -, h5, ⟨-, rfl, rfl⟩ | ⟨h6, -⟩⟩ := h3
      · refine ⟨q', ?_, h2⟩
        rw [Lexer.nextOf, if_neg hz, h4]
        rfl
      · omega

theorem fetch_eof {tts : TokenTypeSet} {fuel : Nat} (defs : List LexDef) (hd : ∀ x ∈ defs, ReOk x.1) {q : SrcQueue} {src : Src}
    {p : Nat} {rest : SrcList.State Src} (h : Holds q ((src, p) :: rest)) (hp : p = src.content.length)
    (hr : AnyRequested defs tts) :
    ∃ q' t, fetchLoop tts (fuel + 1) (lexersOf defs) q none = .done (q', .ok (some t)) ∧ t.type = eofTokenType ∧ Holds q' rest := by
  obtain ⟨q', h1, h2⟩ := fetch_end (fuel := fuel) defs hd h hp hr
  exact ⟨q', _, h1, rfl, h2⟩

theorem fetch_unasked {tts : TokenTypeSet} {fuel : Nat} (defs : List LexDef) (q : SrcQueue) (hr : ¬ AnyRequested defs tts) :
    fetchLoop tts fuel (lexersOf defs) q none = .done (q, .ok none) := by
  induction defs with
  | nil => rfl
  | cons x defs ih =>
    have hl : lexersOf (x :: defs) = Lexer.new x.1 x.2 :: lexersOf defs := rfl
    have hz : tts &&& (Lexer.new x.1 x.2).typeMask = 0 := by
      rw [mask_zero_iff]
      intro k t hk hr'
      exact hr ⟨x, by simp, k, t, hk, hr'⟩
    have h1 : (Lexer.new x.1 x.2).nextOf fuel q tts = .done (q, .ok none) := by
      rw [Lexer.nextOf, if_pos hz]
    rw [hl, fetchLoop, h1]
    refine ih fun ⟨y, hy, h2⟩ => hr ⟨y, by simp [hy], h2⟩

/-- No bytes are left. -/
def NoBytes (l : SrcList.State Src) : Prop := ∀ x ∈ l, x.2 = x.1.content.length

theorem nextLoop_eoi {σ η : Type} {env : PEnv σ} {tenv : TEnv η} {n : Nat} {defs : List LexDef} (hl : tenv.lexers = lexersOf defs)
    (hd : ∀ x ∈ defs, ReOk x.1) {types : TokenTypeSet} (hr : AnyRequested defs types) (l : SrcList.State Src) (hb : NoBytes l)
    (fuel : Nat) (hf : l.length < fuel) (pc : PC (LState η)) (hq : Holds pc.src.ps.src l) :
    ∃ src, nextLoop (pipelineEnv env tenv [] (n + 1)) types fuel pc =
      .done ({ pc with src := src, delivered := pc.delivered ++ [some eoiToken] }, .ok (some eoiToken)) := by
  induction l generalizing fuel pc with
  | nil =>
    obtain ⟨fuel, rfl⟩ : ∃ k, fuel = k + 1 := ⟨fuel - 1, by simp at hf; omega⟩
    rw [nextLoop]
    have h1 : (pipelineEnv env tenv [] (n + 1)).pull pc.src types = .done (pc.src, .ok (some eoiToken)) := by
      have h2 := (fetch_eoi_iff (fuel := n) defs hq.rep rfl).1 hr
      show pullToken tenv (n + 1) types [] pc.src = _
      rw [pullToken, fetchToken, hl, h2]
      rfl
    rw [h1]
    refine ⟨pc.src, ?_⟩
    simp [bindRun, eoiToken, eofTokenType, eoiTokenType, Grammar.isSideToken, Grammar.isSideType]
  | cons x rest ih =>
    obtain ⟨src, p⟩ := x
    simp only [List.length_cons] at hf
    obtain ⟨fuel, rfl⟩ : ∃ k, fuel = k + 1 := ⟨fuel - 1, by omega⟩
    obtain ⟨q', t, h2, h3, h4⟩ := fetch_eof (fuel := n) defs hd hq (hb (src, p) (by simp)) hr
    rw [nextLoop]
    have h1 : (pipelineEnv env tenv [] (n + 1)).pull pc.src types =
        .done ({ pc.src with ps := { pc.src.ps with src := q' } }, .ok (some t)) := by
      show pullToken tenv (n + 1) types [] pc.src = _
      rw [pullToken, fetchToken, hl, h2]
      rfl
    rw [h1]
    obtain ⟨s, h5⟩ := ih (fun y hy => hb y (by simp [hy])) fuel (by omega)
      { pc with src := { pc.src with ps := { pc.src.ps with src := q' } } } h4
    refine ⟨s, ?_⟩
    simp only [bindRun]
    rw [if_pos (by left; simp [h3])]
    exact h5

theorem findRules_eoi {g : Grammar} {upper : List Nat → List Nat} {m : Nat → Int → List Rule} (hm : Means g.tables m) {s : Nat}
    {gs : GState} (hs : g.tables.states[s]? = some gs) (hr : m s (-3) ≠ []) :
    findRules g upper (some eoiToken) s = some (m s (-3)) := by
  unfold findRules
  have h1 : Go.index g.tables.states (s : Int) = some gs := by
    unfold Go.index
    rw [if_pos (by omega)]
    simpa using hs
  rw [h1, Option.bind_some]
  dsimp only
  rw [if_neg (by simp [Grammar.isSideType, eoiToken, eoiTokenType])]
  have h2 : possibleRuleKeys g upper (some eoiToken) = some [-3, -1] := by
    simp [possibleRuleKeys, eoiToken, eoiTokenType, anyToken]
  rw [h2, Option.bind_some, hm.find s gs hs]
  simp [firstRules, hr]

theorem findRules_none {g : Grammar} {upper : List Nat → List Nat} {m : Nat → Int → List Rule} (hm : Means g.tables m) {s : Nat}
    {gs : GState} (hs : g.tables.states[s]? = some gs) : findRules g upper none s = some (m s (-1)) := by
  unfold findRules
  have h1 : Go.index g.tables.states (s : Int) = some gs := by
    unfold Go.index
    rw [if_pos (by omega)]
    simpa using hs
  rw [h1, Option.bind_some]
  dsimp only
  simp only [possibleRuleKeys, Option.bind_some]
  rw [hm.find s gs hs]
  by_cases h : m s (-1) = [] <;> simp [firstRules, anyToken, h]

end Verif.Proof
