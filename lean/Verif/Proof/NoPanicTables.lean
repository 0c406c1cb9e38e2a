/-
Tables of compiled grammars and sources of texts are good enough not to panic.
-/
import Verif.Proof.NoPanic
import Verif.Proof.OneTokenTables
import Verif.Proof.Expected
import Verif.Proof.CompileTotal
import Verif.Proof.SupplyHalts

namespace Verif.Proof

open Verif Verif.Model Verif.Spec Verif.Spec.Ebnf Verif.Spec.Lex Verif.Model.Lexer Verif.Props
open Verif.Model.Tree (bindRun)

/-- If a state expects only tokens then some token is named. -/
theorem expected_some {g : Grammar} {gs : GState} {keys : Finset Int} {get : Int → List Rule} (hk : Keyed keys get)
    (hd : Desc g.tables gs keys get) (hpos : ∀ k, get k ≠ [] → 0 ≤ k) (hlen : ∀ k, get k ≠ [] → k < g.tokens.length) (hne : g.tokens ≠ []) :
    ∃ k, getExpectedToken g gs = some k := by
  obtain ⟨rs, ms, a, b, c, d, e, f⟩ := hd
  have hr : ∀ x ∈ rs, 0 ≤ x.token ∧ x.token < g.tokens.length := by
    intro x hx
    have h1 : x.token ∈ rKeys keys get := by rw [← c]; exact List.mem_map_of_mem hx
    rw [rKeys, mem_sorted, Finset.mem_filter, hk.some] at h1
    exact ⟨hpos _ h1.1, hlen _ h1.1⟩
  have hm : ∀ x ∈ ms, 0 ≤ x.token ∧ x.token < g.tokens.length := by
    intro x hx
    have h1 : x.token ∈ mKeys keys get := by rw [← e]; exact List.mem_map_of_mem hx
    rw [mKeys, mem_sorted, Finset.mem_filter, hk.some] at h1
    exact ⟨hpos _ h1.1, hlen _ h1.1⟩
  obtain ⟨r1, r2, r3⟩ := slice_head a
  obtain ⟨m1, m2, m3⟩ := slice_head b
  have hl : 0 < g.tokens.length := List.length_pos_iff.mpr hne
  have h1 : ∃ i : Int, (if gs.highRule > gs.lowRule then
      (g.tables.rules[gs.lowRule]?).bind fun r =>
        if r.token < 0 ∧ gs.highRule > gs.lowRule + 1 then (g.tables.rules[gs.lowRule + 1]?).map (·.token)
        else some r.token
      else some 0) = some i ∧ 0 ≤ i ∧ i < g.tokens.length := by
    by_cases hh : gs.highRule > gs.lowRule
    · rw [if_pos hh]
      have e0 := r3 0 (by omega)
      cases rs with
      | nil => simp at r1; omega
      | cons x rs =>
        simp only [Nat.add_zero, List.getElem?_cons_zero] at e0
        have := hr x (by simp)
        rw [e0, Option.bind_some, if_neg (by omega)]
        exact ⟨_, rfl, this⟩
    · rw [if_neg hh]
      exact ⟨0, rfl, le_refl _, by omega⟩
  obtain ⟨i, h1, h2, h3⟩ := h1
  have h4 : ∃ k : Int, (if gs.highMulti > gs.lowMulti then
      (g.tables.multi[gs.lowMulti]?).map fun m => if m.token < i then m.token else i
      else some i) = some k ∧ 0 ≤ k ∧ k < g.tokens.length := by
    by_cases hh : gs.highMulti > gs.lowMulti
    · rw [if_pos hh]
      have e0 := m3 0 (by omega)
      cases ms with
      | nil => simp at m1; omega
      | cons x ms =>
        simp only [Nat.add_zero, List.getElem?_cons_zero] at e0
        have := hm x (by simp)
        rw [e0, Option.map_some]
        split
        · exact ⟨_, rfl, this⟩
        · exact ⟨_, rfl, h2, h3⟩
    · rw [if_neg hh]
      exact ⟨_, rfl, h2, h3⟩
  obtain ⟨k, h5, h6, h7⟩ := h4
  unfold getExpectedToken
  rw [h1, Option.bind_some, h5, Option.bind_some]
  have hkk : Go.index g.tokens k = some (g.tokens[k.toNat]'(by omega)) := by
    unfold Go.index
    rw [if_pos (by omega)]
    simp
  rw [hkk]
  exact ⟨_, rfl⟩

/-- Tables of a grammar compiled from definitions without `$`. -/
theorem compiled_sound {upper : List Nat → List Nat} {find : Nat → List Nat → List Nat} {ts : List GToken}
    {bodies : List Chunk} {order1 order2 order3 : List Nat} {fuel : Nat} {g : Grammar}
    (h : Compiled upper find ts bodies order1 order2 order3 fuel g) (hne : ∀ c ∈ bodies, NoEoi c) (hroot : bodies ≠ [])
    (hbelow : ∀ c ∈ bodies, c.Below ts.length) : SoundTables g (tableOf g) ∧ g.tokens = ts := by
  obtain ⟨ttypes, ft, pr, fs, pr', htt, -, -, hres, hb, -, has, hg, htok⟩ := compile_steps h.ok
  have hid : (bodies.map some).filterMap id = bodies := by simp
  rw [hid] at hres hb
  obtain ⟨hs1, hs2, hs3⟩ := resolved_sets (fun c hc => (h.wf c hc).1) h.defined h.order2 h.order3 hres
  have hmem : ∀ i < bodies.length, (bodies[i]?).getD .eoi ∈ bodies := by
    intro i hi
    rw [List.getElem?_eq_getElem hi]
    exact List.getElem_mem hi
  have hft : ∀ i, ∀ k ∈ ft i, 0 ≤ k := by
    intro i k hk
    by_cases hi : i < bodies.length
    · refine starts_nonneg (n := bodies.length) ?_ ?_ ((hs1 i hi k).mp hk) hi
      · intro i hi w hw
        exact lang_noEoi _ (hne _ (hmem i hi)) w hw
      · intro i hi w hw j hj
        exact h.defined _ (hmem i hi) j (lang_refs _ w hw j hj)
    · rw [hs3 i (by omega)] at hk; simp at hk
  have hft' : ∀ i, ∀ k ∈ ft i, k < (ts.length : Int) := by
    intro i k hk
    by_cases hi : i < bodies.length
    · exact starts_below (m := bodies.length) (fun i hi => hbelow _ (hmem i hi)) (fun i hi => h.defined _ (hmem i hi)) ((hs1 i hi k).1 hk) hi
    · rw [hs3 i (by omega)] at hk; simp at hk
  have hts : ts ≠ [] := by
    obtain ⟨k, hk⟩ := hs2 0 (List.length_pos_iff.mpr hroot)
    have h1 := hft 0 k hk
    have h2 := hft' 0 k hk
    intro hz
    rw [hz] at h2
    simp at h2
    omega
  have hkeys := buildNodes_below ft hft' bodies hbelow (by intro e he; cases he) hb
  have hrows := buildNodes_rows hft bodies (fun c hc => ⟨(h.wf c hc).1, hne c hc⟩) ok_empty rows_empty hb
  obtain ⟨pr2, fs2, hb2, hgr, hl, hfirst⟩ := buildNodes_spec ft bodies (fun c hc => (h.wf c hc).1) ok_empty
  rw [hb] at hb2; cases hb2
  obtain ⟨hre, -⟩ := assignStateTypes_spec fs has
  have hok' := hre.ok hgr.ok
  obtain ⟨hmeans, hfs, hslen, -⟩ := buildGrammar_means hok' hg
  have hrules : pr'.rules = pr.rules := by funext s k; exact hre.rules s k
  have hlt : ∀ f ∈ fs, f < pr'.states.length := by
    intro f hf
    obtain ⟨i, hi, rfl⟩ := List.getElem_of_mem hf
    obtain ⟨p, q, -, -, -, -, h1, h2⟩ := hfirst i _ _ (List.getElem?_eq_getElem (by rw [← hl]; exact hi)) (List.getElem?_eq_getElem hi)
    have := h2.len
    rw [hre.len]; omega
  have htab := tableOf_means hmeans (fun s hs k => PR.rules_of_ge (by omega) k)
  have hmeans' := hmeans
  rw [htab] at hmeans'
  have hok2 := dropUnused_ok (firsts := fs) hok'
  have hrows2 : Rows ft (pr'.dropUnused fs).1 :=
    dropUnused_rows hft hok' (hrows.congr fun s k => by rw [hrules])
  have hflen : g.firsts.length = bodies.length := by rw [hfs, dropUnused_firsts, List.length_map, hl]
  have hbel : ∀ (s : Nat) (k : Int), (pr'.dropUnused fs).1.rules s k ≠ [] → 0 ≤ k → k < (ts.length : Int) := by
    have hold : ∀ (s : Nat) (k : Int), pr'.rules s k ≠ [] → k < (ts.length : Int) := by
      intro s k hk
      rw [hrules] at hk
      have hlt : s < pr.states.length := by
        by_contra hge
        exact hk (PR.rules_of_ge (by omega) k)
      have := (hgr.ok.keys s pr.states[s] k (List.getElem?_eq_getElem hlt)).mpr (by
        unfold PR.rules at hk
        rw [List.getElem?_eq_getElem hlt] at hk
        exact hk)
      exact hkeys _ (List.getElem_mem hlt) k this
    intro s k hk h0
    by_cases hsame : (pr'.usedStates fs).card = pr'.states.length
    · rw [dropUnused_same hsame] at hk
      exact hold s k hk
    · by_cases hs : s < (pr'.usedStates fs).card
      · obtain ⟨i, hi, rfl⟩ := newNumber_surj hs
        rw [dropUnused_rules hsame hok' hi, if_pos h0] at hk
        exact hold i k (by intro hz; rw [hz] at hk; exact hk rfl)
      · exact absurd (PR.rules_of_ge (by rw [dropUnused_length]; omega) k) hk
  have htok' : g.tokens = ts := htok
  refine ⟨⟨hmeans', ?_, ?_, ?_, ?_⟩, htok'⟩
  · rw [← htab]
    refine ⟨fun s k r hr => ?_, fun n f hf => ?_⟩
    · have ht := hok2.tgt s k r hr
      by_cases h0 : r.state = finalState
      · exact .inl h0
      · right
        have h1 : r.state.toNat < g.tables.states.length := by
          have := ht.1
          rw [hslen]
          unfold finalState at *; omega
        refine ⟨r.state.toNat, _, ?_, List.getElem?_eq_getElem h1⟩
        have := ht.1
        unfold finalState at *; omega
    · rw [hfs, dropUnused_firsts, List.getElem?_map, Option.map_eq_some_iff] at hf
      obtain ⟨f0, hf0, rfl⟩ := hf
      have hused := (used_iff hok' hlt f0).mpr (.inl (List.mem_of_getElem? hf0))
      have := newNumber_lt hused
      rw [← dropUnused_length, ← hslen] at this
      exact ⟨_, List.getElem?_eq_getElem this⟩
  · intro s k r hr
    rw [← htab] at hr
    rcases (hrows2 s k r hr).2 with h3 | ⟨h0, ⟨-, hk⟩, -⟩
    · exact .inl h3
    · right
      have hnl : r.node.toNat < bodies.length := by
        by_contra hge
        rw [hs3 _ (by omega)] at hk
        simp at hk
      exact ⟨r.node.toNat, _, by omega, List.getElem?_eq_getElem (by rw [hflen]; exact hnl)⟩
  · exact ⟨_, List.getElem?_eq_getElem (by rw [hflen]; exact List.length_pos_iff.mpr hroot)⟩
  · intro s gs hs hany
    obtain ⟨keys, hk, hd⟩ := compiled_desc h.ok (fun c hc => by
      obtain ⟨c', hc', he⟩ := List.mem_map.mp hc
      cases he
      exact (h.wf c hc').1) hmeans' hs
    refine expected_some hk hd (fun k hne => ?_) (fun k hne => ?_) (by rw [htok']; exact hts)
    · obtain ⟨r, hr⟩ := List.exists_mem_of_ne_nil _ hne
      rw [← htab] at hr
      rcases (hrows2 s k r hr).1 with h0 | h0
      · exact h0
      · rw [h0] at hne; exact absurd hany hne
    · obtain ⟨r, hr⟩ := List.exists_mem_of_ne_nil _ hne
      rw [← htab] at hr hne
      rcases (hrows2 s k r hr).1 with h0 | h0
      · rw [htok']; exact hbel s k hne h0
      · rw [h0, htab] at hne; exact absurd hany hne

/-! ### Texts -/

theorem nextOf_fine {n : Nat} {l : Lexer} (hl : TypesBelow n l) (tts : TokenTypeSet) (fuel : Nat) {q : SrcQueue}
    {s : SrcList.State Src} (h : Holds q s) :
    Fine (fun r => (∃ s', Holds r.1 s' ∧ s'.length ≤ s.length) ∧ (∀ t, r.2 = .ok (some t) → KnownType n t) ∧
      (r.2 = .ok none → tts &&& l.typeMask = 0 ∨ tts ≠ allTokenTypes)) (l.nextOf fuel q tts) := by
  obtain ⟨re, types, hre, rfl, hty⟩ := hl
  cases hr : (new re types).nextOf fuel q tts with
  | timeout => trivial
  | panic =>
    exfalso
    unfold nextOf at hr
    split at hr
    · cases hr
    · cases s with
      | nil =>
        cases fuel with
        | zero => rw [nextOfLoop] at hr; cases hr
        | succ fuel => rw [nextOfLoop_eoi _ _ h.rep] at hr; cases hr
      | cons x rest =>
        have hsz := h.size
        simp only [List.length_cons] at hsz
        rcases nextOfLoop_spec hre types tts fuel h.rep h.pos_le (by omega) with ⟨q', l', r, h1, -⟩ | ⟨h1, -⟩
        · rw [h1] at hr; cases hr
        · rw [h1] at hr; cases hr
  | done x =>
    obtain ⟨q', r⟩ := x
    have hz : tts &&& (new re types).typeMask = 0 → q' = q ∧ r = .ok none := by
      intro hz
      unfold nextOf at hr
      rw [if_pos hz] at hr
      cases hr
      exact ⟨rfl, rfl⟩
    by_cases hz' : tts &&& (new re types).typeMask = 0
    · obtain ⟨rfl, rfl⟩ := hz hz'
      exact ⟨⟨s, h, le_refl _⟩, fun t ht => (by cases ht), fun _ => .inl hz'⟩
    · rcases nextOf_spec hre h hr with ⟨-, -, h1⟩ | ⟨l', h1, h2⟩
      · exact absurd ((mask_zero_iff re types tts).mpr h1) hz'
      · cases s with
        | nil =>
          obtain ⟨-, rfl, rfl⟩ := h2
          refine ⟨⟨[], h1, le_refl _⟩, fun t ht => ?_, fun hx => by cases hx⟩
          cases ht
          simp only [KnownType, eoiToken, eoiTokenType]
          omega
        | cons x rest =>
          obtain ⟨src, p⟩ := x
          have hlen := CallSpec.length h2
          refine ⟨⟨l', h1, by simpa using hlen⟩, ?_⟩
          obtain ⟨p0, -, -, ⟨-, -, rfl⟩ | ⟨-, p', -, -, -, -, hlex⟩⟩ := h2
          · refine ⟨fun t ht => ?_, fun hx => by cases hx⟩
            cases ht
            simp only [KnownType, eofTokenType, eoiTokenType]
            omega
          · refine ⟨fun t ht => ?_, fun hx => ?_⟩
            · dsimp only at ht
              subst ht
              cases hlex with
              | token e gs k a b t name hm hg hab hbe hpe hdec hgt hreq =>
                have := hty _ _ hgt
                simp only [KnownType, eoiTokenType]
                omega
            · dsimp only at hx
              subst hx
              cases hlex with
              | nothing e gs hm hex hdec =>
                right
                rintro rfl
                obtain ⟨g, hg, hcap⟩ := hex
                obtain ⟨k, hk, hgk⟩ := List.getElem_of_mem hg
                obtain ⟨t, ht, hnr⟩ := hdec k hk g (by rw [← hgk]; exact List.getElem?_eq_getElem hk) hcap
                apply hnr
                have := (groupType_lt (name := t.2) ht).1
                unfold Requested allTokenTypes
                rw [BitVec.getLsbD_allOnes]
                exact decide_eq_true this

theorem fetchLoop_fine {n : Nat} (tts : TokenTypeSet) (fuel : Nat) {ls : List Lexer} (hls : ∀ l ∈ ls, TypesBelow n l) {q : SrcQueue}
    {s : SrcList.State Src} (h : Holds q s) (fe : Option LlxError) :
    Fine (fun r => (∃ s', Holds r.1 s' ∧ s'.length ≤ s.length) ∧ (∀ t, r.2 = .ok (some t) → KnownType n t) ∧
      (r.2 = .ok none → tts = allTokenTypes → fe = none ∧ ∀ l ∈ ls, tts &&& l.typeMask = 0)) (fetchLoop tts fuel ls q fe) := by
  induction ls generalizing q s fe with
  | nil =>
    rw [fetchLoop.eq_def]
    cases fe with
    | none => exact ⟨⟨s, h, le_refl _⟩, fun t ht => (by cases ht), fun _ _ => ⟨rfl, by simp⟩⟩
    | some e =>
      dsimp only
      split
      · exact ⟨⟨s, h, le_refl _⟩, fun t ht => (by cases ht), fun hx => (by cases hx)⟩
      · rename_i hne
        exact ⟨⟨s, h, le_refl _⟩, fun t ht => (by cases ht), fun _ hx => absurd hx hne⟩
  | cons l ls ih =>
    rw [fetchLoop]
    refine Fine.bind (nextOf_fine (hls l (by simp)) tts fuel h) ?_
    rintro ⟨q1, r⟩ ⟨⟨s1, h1, h2⟩, h3, h4⟩
    have hls' : ∀ l ∈ ls, TypesBelow n l := fun l hl => hls l (by simp [hl])
    rcases r with e | (_ | t)
    · refine Fine.mono (ih hls' h1 _) ?_
      rintro ⟨q2, r⟩ ⟨⟨s2, h5, h6⟩, h7, h8⟩
      refine ⟨⟨s2, h5, by omega⟩, h7, fun hx hall => ?_⟩
      have := (h8 hx hall).1
      split at this <;> cases this
    · refine Fine.mono (ih hls' h1 _) ?_
      rintro ⟨q2, r⟩ ⟨⟨s2, h5, h6⟩, h7, h8⟩
      refine ⟨⟨s2, h5, by omega⟩, h7, fun hx hall => ⟨(h8 hx hall).1, ?_⟩⟩
      rw [List.forall_mem_cons]
      exact ⟨(h4 rfl).resolve_right fun hne => hne hall, (h8 hx hall).2⟩
    · exact ⟨⟨s1, h1, h2⟩, fun t' ht => h3 t' (by cases ht; rfl), fun hx => (by cases hx)⟩

/-- Sources of the parser. -/
def AtMost {η : Type} (B : Nat) (ls : LState η) : Prop := ∃ l, Holds ls.ps.src l ∧ l.length ≤ B

theorem pipeline_answers {σ η : Type} (env : PEnv σ) (tenv : TEnv η) (hls : ∀ l ∈ tenv.lexers, TypesBelow env.g.tokens.length l)
    (hsome : ∃ l ∈ tenv.lexers, l.typeMask ≠ 0) (k B : Nat) :
    Answers (pipelineEnv env tenv [] k) (AtMost B) (KnownType env.g.tokens.length) := by
  have hp : ∀ (q : LState η) types, AtMost B q → Fine (fun r => (AtMost B r.1 ∧ ∀ t, r.2 = .ok (some t) → KnownType env.g.tokens.length t) ∧
      (types = allTokenTypes → r.2 ≠ .ok none)) ((pipelineEnv env tenv [] k).pull q types) := by
    rintro q types ⟨l, h1, h2⟩
    show Fine _ (pullToken tenv k types [] q)
    rw [pullToken, fetchToken]
    refine Fine.bind (fetchLoop_fine types k hls h1 none) ?_
    rintro ⟨q', r⟩ ⟨⟨l', h3, h4⟩, h5, h6⟩
    refine ⟨⟨⟨l', h3, by omega⟩, h5⟩, fun hall hx => ?_⟩
    obtain ⟨l0, h7, h8⟩ := hsome
    have := (h6 hx hall).2 l0 h7
    rw [hall] at this
    apply h8
    unfold allTokenTypes at this
    rwa [BitVec.allOnes_and] at this
  refine ⟨fun q types hq => Fine.mono (hp q types hq) fun r hr => hr.1, fun t ht => ht.2, fun q q' hq he => ?_⟩
  have := hp q allTokenTypes hq
  rw [he] at this
  exact this.2 rfl rfl

theorem pipeline_takesBack {σ η : Type} (env : PEnv σ) (tenv : TEnv η) (k B : Nat) (hB : B < 2 ^ 31) :
    TakesBack (pipelineEnv env tenv [] k) (AtMost B) (AtMost (B + 1)) (KnownType env.g.tokens.length) := by
  rintro q t ⟨l, h1, h2⟩ - - hs
  obtain ⟨src, hsrc⟩ := Option.isSome_iff_exists.mp hs
  have : ∃ q', unreadToken q.ps.src t = some q' := by
    unfold unreadToken
    split
    · rw [hsrc]
      obtain ⟨q2, h3, -⟩ := h1.rep.prepend src
      rw [h3]
      exact ⟨_, rfl⟩
    · exact ⟨_, rfl⟩
  obtain ⟨q', hq'⟩ := this
  obtain ⟨l', h3, h4⟩ := unread_sources h1 (by omega) hq'
  refine ⟨{ q with ps := { q.ps with src := q' } }, ?_, ?_⟩
  · show (unreadToken q.ps.src t).map _ = _
    rw [hq']; rfl
  · exact ⟨l', h3, by omega⟩

end Verif.Proof
