/-
C27, C28: from state entries to the tables of a grammar.
-/
import Verif.Proof.Tables
import Verif.Spec.Rules
import Verif.Proof.DropStates
import Verif.Proof.ChunkNodes

namespace Verif.Props

open Verif.Model Verif.Spec Verif.Spec.Ebnf Verif.Proof

theorem firstWith_eq (m : Int → List Rule) (keys : List Int) : firstWith m keys = firstRules m keys := by
  induction keys with
  | nil => rfl
  | cons k ks ih =>
    rw [firstWith, firstRules, List.map_cons, List.find?_cons]
    by_cases h : m k = []
    · rw [if_pos h, ih]; simp [h, firstRules]
    · rw [if_neg h]; simp [h]

/-- C27: building tables never panics and makes one state per entry with the same expected token types; for every state
and every list of possible keys the parser finds (without a panic) exactly the rules recorded for the first key that has
some, in order. The hypotheses say that recorded rules carry the key they are recorded under. -/
theorem C27_tables_mean_entries (pr : PR)
    (hkeys : ∀ e ∈ pr.states, ∀ k, k ∈ e.keys ↔ pr.slot e k ≠ [])
    (htok : ∀ e ∈ pr.states, ∀ k, ∀ r ∈ pr.slot e k, r.token = k) :
    ∃ t, buildTables pr pr.states {} = some t ∧ t.states.length = pr.states.length ∧
      ∀ (s : Nat) (e : Entry), pr.states[s]? = some e → ∃ gs, t.states[s]? = some gs ∧ gs.types = e.types ∧
        ∀ keys, findRulesBy t gs keys = some (firstRules (pr.rules s) keys) := by
  have hk : ∀ e ∈ pr.states, Keyed e.keys (pr.slot e) := fun e he => ⟨hkeys e he, htok e he⟩
  obtain ⟨t, gss, h1, h2, -, -, h5⟩ := buildTables_spec pr pr.states {} hk
  have h2 : t.states = gss := by simpa using h2
  refine ⟨t, h1, by rw [h2, h5.length_eq], fun s e he => ?_⟩
  have hlt : s < pr.states.length := (List.getElem?_eq_some_iff.mp he).1
  have hlt2 : s < gss.length := by rw [← h5.length_eq]; exact hlt
  have he' : pr.states[s] = e := (List.getElem?_eq_some_iff.mp he).2
  obtain ⟨h6, h7⟩ := List.Forall₂.get h5 hlt hlt2
  simp only [List.get_eq_getElem, he'] at h6 h7
  refine ⟨gss[s], by rw [h2]; exact List.getElem?_eq_getElem hlt2, h6, fun keys => ?_⟩
  rw [findRulesBy_spec (hk e (List.mem_of_getElem? he)) h7, firstWith_eq]
  congr 2
  funext k
  rw [PR.rules, he]

/-- C27: looking one key up gives exactly the rules recorded for that key. -/
theorem C27_one_key (pr : PR)
    (hkeys : ∀ e ∈ pr.states, ∀ k, k ∈ e.keys ↔ pr.slot e k ≠ [])
    (htok : ∀ e ∈ pr.states, ∀ k, ∀ r ∈ pr.slot e k, r.token = k) :
    ∃ t, buildTables pr pr.states {} = some t ∧
      ∀ (s : Nat), s < pr.states.length → ∃ gs, t.states[s]? = some gs ∧
        ∀ key, findRulesBy t gs [key] = some (pr.rules s key) := by
  obtain ⟨t, h1, h2, h3⟩ := C27_tables_mean_entries pr hkeys htok
  refine ⟨t, h1, fun s hs => ?_⟩
  obtain ⟨gs, h4, -, h5⟩ := h3 s pr.states[s] (List.getElem?_eq_getElem hs)
  refine ⟨gs, h4, fun key => ?_⟩
  rw [h5]
  by_cases h : pr.rules s key = [] <;> simp [firstRules, h]

theorem ok_keys {pr : PR} (h : pr.Ok) : (∀ e ∈ pr.states, ∀ k, k ∈ e.keys ↔ pr.slot e k ≠ []) ∧
    ∀ e ∈ pr.states, ∀ k, ∀ r ∈ pr.slot e k, r.token = k := by
  refine ⟨fun e he k => ?_, fun e he k r hr => ?_⟩
  · obtain ⟨s, hs, rfl⟩ := List.getElem_of_mem he
    exact h.keys s _ k (List.getElem?_eq_getElem hs)
  · obtain ⟨s, hs, rfl⟩ := List.getElem_of_mem he
    refine h.tok s k r ?_
    rw [PR.rules, List.getElem?_eq_getElem hs]; exact hr

/-- C27: compiling any well-formed node definitions gives tables that mean the same as the state entries left after
dropping unused states. -/
theorem C27_compiled (ft : Nat → Finset Int) (bodies : List Chunk) (hwf : ∀ c ∈ bodies, WF c) :
    ∃ pr fs t fs', buildNodes ft bodies {} = some (pr, fs) ∧ pr.buildGrammar fs = some (t, fs') ∧
      ∀ (s : Nat), s < t.states.length → ∃ gs, t.states[s]? = some gs ∧
        ∀ keys, findRulesBy t gs keys = some (firstRules ((pr.dropUnused fs).1.rules s) keys) := by
  obtain ⟨pr, fs, h1, hg, -⟩ := buildNodes_spec ft bodies hwf ok_empty
  have hk := ok_keys (dropUnused_ok (firsts := fs) hg.ok)
  obtain ⟨t, h2, h3, h4⟩ := C27_tables_mean_entries (pr.dropUnused fs).1 hk.1 hk.2
  refine ⟨pr, fs, t, (pr.dropUnused fs).2, h1, ?_, fun s hs => ?_⟩
  · simp [PR.buildGrammar, h2]
  · rw [h3] at hs
    obtain ⟨gs, h5, -, h6⟩ := h4 s _ (List.getElem?_eq_getElem hs)
    exact ⟨gs, h5, h6⟩

/-- `root = foo | bar | 'x' | $, 'y'...`: several rules under one key, a fallback rule and rules under single keys. -/
def sampleEntries : PR :=
  { states := [
      { types := 5, keys := {-1, 2, 7, 9}
        pos := fun k => if k = 7 then [⟨7, 1, 3⟩, ⟨7, 0, 4⟩] else if k = 9 then [⟨9, 1, 1⟩, ⟨9, -1, -1⟩]
          else if k = 2 then [⟨2, 1, -1⟩] else []
        neg := fun k => if k = -1 then some 0 else none },
      { keys := {4}, pos := fun k => if k = 4 then [⟨4, -1, -1⟩] else [] }]
    cells := [⟨-1, 1, -1⟩] }

example : (buildTables sampleEntries sampleEntries.states {}).bind (fun t =>
    (t.states[0]?).map fun gs => [findRulesBy t gs [7], findRulesBy t gs [4, 9, -1], findRulesBy t gs [5, -1], findRulesBy t gs [8]]) =
    some [some [⟨7, 1, 3⟩, ⟨7, 0, 4⟩], some [⟨9, 1, 1⟩, ⟨9, -1, -1⟩], some [⟨-1, 1, -1⟩], some []] := by
  decide +kernel

example : (∀ e ∈ sampleEntries.states, ∀ k, k ∈ e.keys ↔ sampleEntries.slot e k ≠ []) ∧
    ∀ e ∈ sampleEntries.states, ∀ k, ∀ r ∈ sampleEntries.slot e k, r.token = k := by
  constructor
  · intro e he k
    simp only [sampleEntries, List.mem_cons, List.not_mem_nil, or_false] at he
    rcases he with rfl | rfl
    · simp only [PR.slot, Finset.mem_insert, Finset.mem_singleton]
      split_ifs <;> simp_all [sampleEntries] <;> omega
    · simp only [PR.slot, Finset.mem_singleton]
      split_ifs <;> simp_all
      omega
  · intro e he k r hr
    simp only [sampleEntries, List.mem_cons, List.not_mem_nil, or_false] at he
    rcases he with rfl | rfl
    · simp only [PR.slot] at hr
      split_ifs at hr <;> simp_all [sampleEntries] <;> (try rcases hr with rfl | rfl) <;> simp_all
    · simp only [PR.slot] at hr
      split_ifs at hr <;> simp_all

/-- States in use: first states of nodes and targets of rules. -/
def Used (pr : PR) (firsts : List Nat) (i : Nat) : Prop := i ∈ firsts ∨ ∃ (s : Nat) (k : Int), ∃ r ∈ pr.rules s k, r.state = i

/-- A rule under a new numbering of states. -/
def renumbered (num : Nat → Nat) (r : Rule) : Rule :=
  if 0 ≤ r.state then { r with state := num r.state.toNat } else r

theorem used_iff {pr : PR} {firsts : List Nat} (hok : pr.Ok) (hf : ∀ f ∈ firsts, f < pr.states.length) (i : Nat) :
    i ∈ pr.usedStates firsts ↔ Used pr firsts i := by
  constructor
  · intro h
    rcases (Finset.mem_filter.mp h).2 with h | ⟨e, he, k, -, r, hr, hri⟩
    · exact Or.inl h
    · obtain ⟨s, hs, rfl⟩ := List.getElem_of_mem he
      refine Or.inr ⟨s, k, r, ?_, hri⟩
      rw [PR.rules, List.getElem?_eq_getElem hs]; exact hr
  · rintro (h | ⟨s, k, r, hr, hri⟩)
    · exact Finset.mem_filter.mpr ⟨Finset.mem_range.mpr (hf i h), Or.inl h⟩
    · exact target_used hok hr hri

/-- C28, partial: if a rule slice under a negative key is used by one state, or leads to a state with no dropped
state before it, then dropping unused states only renumbers states: used states get new numbers in the same
order, and every used state has the same rules under the new numbers. Missing: other shared slices, for which it is
false (see below). -/
theorem C28_renumbered_partial (pr : PR) (firsts : List Nat) (hok : pr.Ok) (hf : ∀ f ∈ firsts, f < pr.states.length)
    (hsafe : ∀ (i j : Nat) (e f : Entry) (k : Int) (c : Nat), i ≠ j → pr.states[i]? = some e → pr.states[j]? = some f →
      e.neg k = some c → f.neg k = some c → ∀ r ∈ pr.rules i k, ∀ t : Nat, (t : Int) ≤ r.state → Used pr firsts t) :
    ∃ num : Nat → Nat,
      (∀ i j, Used pr firsts i → Used pr firsts j → i < j → num i < num j) ∧
      (∀ n, n < (pr.dropUnused firsts).1.states.length ↔ ∃ i, Used pr firsts i ∧ num i = n) ∧
      (pr.dropUnused firsts).2 = firsts.map num ∧
      ∀ i, Used pr firsts i → ∀ k, (pr.dropUnused firsts).1.rules (num i) k = (pr.rules i k).map (renumbered num) := by
  have hu := used_iff hok hf
  refine ⟨newNumber pr firsts, fun i j hi hj => newNumber_mono ((hu i).mpr hi) ((hu j).mpr hj), fun n => ?_,
    dropUnused_firsts pr firsts, fun i hi k => ?_⟩
  · rw [dropUnused_length]
    constructor
    · intro h
      obtain ⟨i, hi, hn⟩ := newNumber_surj h
      exact ⟨i, (hu i).mp hi, hn⟩
    · rintro ⟨i, hi, rfl⟩
      exact newNumber_lt ((hu i).mpr hi)
  · refine dropUnused_once hok ?_ ((hu i).mpr hi) k
    intro i j e f k c hi hj hij he hf' hc hc' r hr
    have h1 := hsafe i j e f k c hij he hf' hc hc' r hr
    by_cases h0 : 0 ≤ r.state
    · have h2 : newNumber pr firsts r.state.toNat = r.state.toNat :=
        newNumber_self _ (fun j hj => (hu j).mpr (h1 j (by omega)))
      have h3 : remapRule (newNumber pr firsts) r = r := by
        unfold remapRule; rw [if_pos h0, h2, Int.toNat_of_nonneg h0]
      rw [h3, h3]
    · have h3 : remapRule (newNumber pr firsts) r = r := by unfold remapRule; rw [if_neg h0]
      rw [h3, h3]

theorem reads_renumbered (num : Nat → Nat) (r : Rule) : Rule.reads (renumbered num r) = Rule.reads r := by
  unfold renumbered Rule.reads; split <;> rfl

theorem accepts_renumbered {m m' : Table} {num : Nat → Nat} {U : Nat → Prop}
    (hU : ∀ i, U i → ∀ k, ∀ r ∈ m i k, 0 ≤ r.state → U r.state.toNat)
    (hm : ∀ i, U i → ∀ k, m' (num i) k = (m i k).map (renumbered num)) {s : Int} {w : List Sym} (h : Accepts m s w) :
    ∀ i : Nat, s = i → U i → Accepts m' (num i) w := by
  have key : ∀ (r : Rule) (w : List Sym), finalState = r.state ∨ 0 ≤ r.state →
      (∀ i : Nat, r.state = i → U i → Accepts m' (num i) w) → (0 ≤ r.state → U r.state.toNat) → Accepts m' r.state w ∨ 0 ≤ r.state →
      Accepts m' (renumbered num r).state w := by
    intro r w hr h1 h2 h3
    unfold renumbered
    by_cases h0 : 0 ≤ r.state
    · rw [if_pos h0]
      exact h1 r.state.toNat (Int.toNat_of_nonneg h0).symm (h2 h0)
    · rw [if_neg h0]
      exact h3.resolve_right h0
  have neg : ∀ {s : Int} {w : List Sym}, Accepts m s w → ¬ 0 ≤ s → s = finalState ∧ w = [] := by
    intro s w h hs
    cases h with
    | final => exact ⟨rfl, rfl⟩
    | skip _ _ _ => omega
    | read _ _ _ => omega
  induction h with
  | final => intro i hi; unfold finalState at hi; omega
  | skip hr hn ha ih =>
    rename_i s k r w
    intro i hi hu
    have : s = i := by omega
    subst this
    refine Accepts.skip (k := k) (r := renumbered num r) ?_ (by rw [reads_renumbered]; exact hn) ?_
    · rw [hm s hu]; exact List.mem_map_of_mem hr
    · refine key r w ?_ ih (hU s hu k r hr) ?_
      · by_cases h0 : 0 ≤ r.state
        · exact Or.inr h0
        · exact Or.inl (neg ha h0).1.symm
      · by_cases h0 : 0 ≤ r.state
        · exact Or.inr h0
        · obtain ⟨h1, rfl⟩ := neg ha h0
          rw [h1]; exact Or.inl Accepts.final
  | read hr hn ha ih =>
    rename_i s k r x w
    intro i hi hu
    have : s = i := by omega
    subst this
    refine Accepts.read (k := k) (r := renumbered num r) ?_ (by rw [reads_renumbered]; exact hn) ?_
    · rw [hm s hu]; exact List.mem_map_of_mem hr
    · refine key r w ?_ ih (hU s hu k r hr) ?_
      · by_cases h0 : 0 ≤ r.state
        · exact Or.inr h0
        · exact Or.inl (neg ha h0).1.symm
      · by_cases h0 : 0 ≤ r.state
        · exact Or.inr h0
        · obtain ⟨h1, rfl⟩ := neg ha h0
          rw [h1]; exact Or.inl Accepts.final

theorem accepts_unrenumbered {m m' : Table} {num : Nat → Nat} {U : Nat → Prop}
    (hU : ∀ i, U i → ∀ k, ∀ r ∈ m i k, 0 ≤ r.state → U r.state.toNat)
    (hm : ∀ i, U i → ∀ k, m' (num i) k = (m i k).map (renumbered num)) {s : Int} {w : List Sym} (h : Accepts m' s w) :
    ∀ i : Nat, s = num i → U i → Accepts m i w := by
  have step : ∀ {r : Rule} {w : List Sym}, (∀ i : Nat, (renumbered num r).state = num i → U i → Accepts m i w) →
      Accepts m' (renumbered num r).state w → (0 ≤ r.state → U r.state.toNat) → Accepts m r.state w := by
    intro r w ih ha hu
    by_cases h0 : 0 ≤ r.state
    · have := ih r.state.toNat (by unfold renumbered; rw [if_pos h0]) (hu h0)
      rwa [Int.toNat_of_nonneg h0] at this
    · have h1 : renumbered num r = r := by unfold renumbered; rw [if_neg h0]
      rw [h1] at ha
      generalize hs : r.state = s at ha h0
      cases ha with
      | final => exact Accepts.final
      | skip _ _ _ => omega
      | read _ _ _ => omega
  induction h with
  | final => intro i hi; unfold finalState at hi; omega
  | skip hr hn ha ih =>
    rename_i s k r w
    intro i hi hu
    have : s = num i := by omega
    subst this
    rw [hm i hu] at hr
    obtain ⟨x, hx, rfl⟩ := List.mem_map.mp hr
    exact Accepts.skip hx (by rwa [reads_renumbered] at hn) (step ih ha (hU i hu k x hx))
  | read hr hn ha ih =>
    rename_i s k r y w
    intro i hi hu
    have : s = num i := by omega
    subst this
    rw [hm i hu] at hr
    obtain ⟨x, hx, rfl⟩ := List.mem_map.mp hr
    exact Accepts.read hx (by rwa [reads_renumbered] at hn) (step ih ha (hU i hu k x hx))

/-- C28, partial: with the same restriction the machine of every node accepts the same words after dropping. -/
theorem C28_same_words_partial (pr : PR) (firsts : List Nat) (hok : pr.Ok) (hf : ∀ f ∈ firsts, f < pr.states.length)
    (hsafe : ∀ (i j : Nat) (e f : Entry) (k : Int) (c : Nat), i ≠ j → pr.states[i]? = some e → pr.states[j]? = some f →
      e.neg k = some c → f.neg k = some c → ∀ r ∈ pr.rules i k, ∀ t : Nat, (t : Int) ≤ r.state → Used pr firsts t)
    (n : Nat) (f f' : Nat) (h1 : firsts[n]? = some f) (h2 : (pr.dropUnused firsts).2[n]? = some f') (w : List Sym) :
    Accepts (pr.dropUnused firsts).1.rules f' w ↔ Accepts pr.rules f w := by
  obtain ⟨num, -, -, h3, h4⟩ := C28_renumbered_partial pr firsts hok hf hsafe
  have hff : f' = num f := by
    rw [h3, List.getElem?_map, h1] at h2
    exact (Option.some.inj h2).symm
  subst hff
  have hU : ∀ i, Used pr firsts i → ∀ k, ∀ r ∈ pr.rules i k, 0 ≤ r.state → Used pr firsts r.state.toNat :=
    fun i _ k r hr h0 => Or.inr ⟨i, k, r, hr, (Int.toNat_of_nonneg h0).symm⟩
  have hu : Used pr firsts f := Or.inl (List.mem_of_getElem? h1)
  exact ⟨fun h => accepts_unrenumbered hU h4 h f rfl hu, fun h => accepts_renumbered hU h4 h f rfl hu⟩

/-- C28: what really happens, for all machines: rules under keys ≥ 0 are renumbered once, the slice of a negative key as
many times as there are used states sharing it. -/
theorem C28_shared_rules_exact (pr : PR) (firsts : List Nat) (hok : pr.Ok)
    (hd : ∃ i < pr.states.length, i ∉ pr.usedStates firsts) :
    ∃ num : Nat → Nat, ∀ i ∈ pr.usedStates firsts, ∀ (e : Entry), pr.states[i]? = some e → ∀ k,
      (0 ≤ k → (pr.dropUnused firsts).1.rules (num i) k = (pr.rules i k).map (renumbered num)) ∧
      (∀ c, k < 0 → e.neg k = some c → (pr.dropUnused firsts).1.rules (num i) k =
        (pr.rules i k).map (renumbered num)^[(sorted (pr.usedStates firsts)).countP fun j =>
          (pr.states[j]?).any fun f => decide (∃ k' ∈ f.keys, k' < 0 ∧ f.neg k' = some c)]) := by
  have hne : (pr.usedStates firsts).card ≠ pr.states.length := by
    intro h
    obtain ⟨i, hi, hn⟩ := hd
    exact hn (card_used_eq h hi)
  refine ⟨newNumber pr firsts, fun i hi e he k => ⟨fun hk => ?_, fun c hk hc => ?_⟩⟩
  · rw [dropUnused_rules hne hok hi, if_pos hk]; rfl
  · rw [dropUnused_rules hne hok hi, if_neg (by omega), he]
    simp only [hc]
    have : (fun j => (pr.states[j]?).any fun f => decide (∃ k' ∈ f.keys, k' < 0 ∧ f.neg k' = some c)) = refers pr c := by
      funext j
      unfold refers
      cases pr.states[j]? <;> rfl
    rw [this]; rfl

/-- `root = {'a', 'b'}, ('c', ['x'], ['y']), 'd'`. -/
def sharedBypass : Chunk :=
  .group [.group [.token 0, .token 1] true true,
    .group [.token 2, .group [.token 3] true false, .group [.token 4] true false] false false, .token 5] false false

/-- `root = {'a', 'b'}, ('c', ['x']), 'd'`. -/
def unsharedBypass : Chunk :=
  .group [.group [.token 0, .token 1] true true,
    .group [.token 2, .group [.token 3] true false] false false, .token 5] false false

/-- A definition meeting the hypotheses of the partial theorems (no slice is shared), with a dropped state and a fallback
rule. -/
example : ((buildNodes (fun _ => ∅) [unsharedBypass] {}).map fun r =>
    (r.1.states.length, (r.1.dropUnused r.2).1.states.length, r.1.rules 5 (-1), (r.1.dropUnused r.2).1.rules 3 (-1))) =
    some (6, 4, [⟨-1, 2, -1⟩], [⟨-1, 1, -1⟩]) ∧
    ((buildNodes (fun _ => ∅) [unsharedBypass] {}).map fun r => r.1.states.map fun e => (sorted e.keys).map e.neg) =
    some [[none, none], [none], [none], [none], [none], [some 0, none]] := by
  constructor <;> decide +kernel

theorem accepts_needs {m : Table} {P : Int → Prop} {x : Sym} (hf : ¬ P finalState)
    (hm : ∀ (s : Nat) (k : Int), P s → ∀ r ∈ m s k, P r.state ∨ Rule.reads r = some x) {s : Int} {w : List Sym}
    (h : Accepts m s w) : P s → x ∈ w := by
  induction h with
  | final => intro hp; exact absurd hp hf
  | skip hr hn _ ih =>
    intro hp
    rcases hm _ _ hp _ hr with h | h
    · exact ih h
    · rw [hn] at h; cases h
  | read hr hn _ ih =>
    intro hp
    rcases hm _ _ hp _ hr with h | h
    · exact List.mem_cons_of_mem _ (ih h)
    · rw [hn] at h; cases h; simp

theorem rules_keys {pr : PR} (hok : pr.Ok) {s : Nat} {k : Int} {r : Rule} (hr : r ∈ pr.rules s k) :
    ∃ e, pr.states[s]? = some e ∧ k ∈ e.keys := by
  unfold PR.rules at hr
  cases he : pr.states[s]? with
  | none => rw [he] at hr; simp at hr
  | some e =>
    rw [he] at hr
    exact ⟨e, rfl, (hok.keys s e k he).mpr (List.ne_nil_of_mem hr)⟩

/-- C28 is false in general. For the definition `root = {'a', 'b'}, ('c', ['x'], ['y']), 'd'` one fallback rule is shared
by two states and its target is renumbered twice: the machine before dropping accepts `c d`, the machine after dropping
does not. -/
theorem C28_renumbered_twice :
    WF sharedBypass ∧ ∃ pr fs, buildNodes (fun _ => ∅) [sharedBypass] {} = some (pr, fs) ∧
      fs = [0] ∧ (pr.dropUnused fs).2 = [0] ∧ Accepts pr.rules 0 [.tok 2, .tok 5] ∧
      ¬ Accepts (pr.dropUnused fs).1.rules 0 [.tok 2, .tok 5] := by
  have hwf : WF sharedBypass := by simp [sharedBypass, WF, WFs]
  refine ⟨hwf, ?_⟩
  obtain ⟨pr, fs, h1, hg, -⟩ := buildNodes_spec (fun _ => ∅) [sharedBypass] (by simpa using hwf) ok_empty
  have hev : (buildNodes (fun _ => ∅) [sharedBypass] {}).map (fun r => (r.2, (r.1.dropUnused r.2).2, r.1.rules 0 2,
      r.1.rules 5 (-1), r.1.rules 2 5)) = some ([0], [0], [⟨2, 5, -1⟩], [⟨-1, 2, -1⟩], [⟨5, -1, -1⟩]) := by
    decide +kernel
  have hev2 : (buildNodes (fun _ => ∅) [sharedBypass] {}).map (fun r => (r.1.dropUnused r.2).1.states.map fun e =>
      (sorted e.keys).map fun k => ((r.1.dropUnused r.2).1.slot e k).map fun x => (x.state, Rule.reads x)) =
      some [[[(2, some (.tok 0))], [(3, some (.tok 2))]], [[(-1, some (.tok 5))]], [[(0, some (.tok 1))]],
        [[(0, none)], [(4, some (.tok 3))], [(1, some (.tok 4))]], [[(0, none)], [(1, some (.tok 4))]]] := by
    decide +kernel
  rw [h1] at hev hev2
  simp only [Option.map_some, Option.some.injEq, Prod.mk.injEq] at hev hev2
  obtain ⟨a1, a2, a3, a4, a5⟩ := hev
  refine ⟨pr, fs, h1, a1, a2, ?_, ?_⟩
  · refine Accepts.read (s := 0) (k := 2) (r := ⟨2, 5, -1⟩) (by rw [a3]; simp) (by decide) ?_
    refine Accepts.skip (s := 5) (k := -1) (r := ⟨-1, 2, -1⟩) (by rw [a4]; simp) (by decide) ?_
    refine Accepts.read (s := 2) (k := 5) (r := ⟨5, -1, -1⟩) (by rw [a5]; simp) (by decide) ?_
    exact Accepts.final
  · intro h
    have hok := dropUnused_ok (firsts := fs) hg.ok
    have := accepts_needs (P := fun s => s ≠ 1 ∧ s ≠ -1) (x := .tok 4) (by simp [finalState]) ?_ h (by simp)
    · simp at this
    · intro s k hs r hr
      obtain ⟨e, he, hk⟩ := rules_keys hok hr
      have hslot : (pr.dropUnused fs).1.rules s k = (pr.dropUnused fs).1.slot e k := by rw [PR.rules, he]
      rw [hslot] at hr
      have h3 := congrArg (fun l => l[s]?) hev2
      simp only [List.getElem?_map, he, Option.map_some] at h3
      have hm : (r.state, Rule.reads r) ∈ ((sorted e.keys).map fun k =>
          ((pr.dropUnused fs).1.slot e k).map fun x => (x.state, Rule.reads x)).flatten :=
        List.mem_flatten.mpr ⟨_, List.mem_map.mpr ⟨k, mem_sorted.mpr hk, rfl⟩, List.mem_map.mpr ⟨r, hr, rfl⟩⟩
      match s, hs, h3 with
      | 0, _, h3 => rw [Option.some.inj h3] at hm; simp at hm; rcases hm with ⟨h, -⟩ | ⟨h, -⟩ <;> simp [h]
      | 1, hs, _ => simp at hs
      | 2, _, h3 => rw [Option.some.inj h3] at hm; simp at hm; simp [hm.1]
      | 3, _, h3 => rw [Option.some.inj h3] at hm; simp at hm; rcases hm with ⟨h, -⟩ | ⟨h, -⟩ | ⟨-, h⟩ <;> simp [h]
      | 4, _, h3 => rw [Option.some.inj h3] at hm; simp at hm; rcases hm with ⟨h, -⟩ | ⟨-, h⟩ <;> simp [h]
      | n + 5, _, h3 => simp at h3

end Verif.Props
