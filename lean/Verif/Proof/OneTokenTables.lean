/-
Tables of compiled grammars and nested nodes.
-/
import Verif.Proof.ChunkRows
import Verif.Props.Sound
import Verif.Spec.OneToken

namespace Verif.Proof

open Verif.Model Verif.Spec Verif.Spec.Ebnf Verif.Props

theorem remapRule_node (ni : Nat → Nat) (r : Rule) : (remapRule ni r).node = r.node := by
  unfold remapRule; split <;> rfl

theorem remapRule_iter_node (ni : Nat → Nat) (n : Nat) (r : Rule) : ((remapRule ni)^[n] r).node = r.node := by
  induction n generalizing r with
  | zero => rfl
  | succ n ih => rw [Function.iterate_succ_apply, ih, remapRule_node]

theorem remapRule_state (ni : Nat → Nat) {r r' : Rule} (h : r.state = r'.state) : (remapRule ni r).state = (remapRule ni r').state := by
  unfold remapRule
  rw [h]
  split
  · rfl
  · exact h

theorem dropUnused_rows {ft : Nat → Finset Int} (hft : ∀ i, ∀ k ∈ ft i, 0 ≤ k) {pr : PR} {fs : List Nat} (hok : pr.Ok) (h : Rows ft pr) :
    Rows ft (pr.dropUnused fs).1 := by
  by_cases hsame : (pr.usedStates fs).card = pr.states.length
  · rw [dropUnused_same hsame]; exact h
  intro s k r hr
  by_cases hs : s < (pr.usedStates fs).card
  · obtain ⟨i, hi, rfl⟩ := newNumber_surj hs
    have hpos : ∀ k, 0 ≤ k → (pr.dropUnused fs).1.rules (newNumber pr fs i) k = (pr.rules i k).map (remapRule (newNumber pr fs)) := by
      intro k hk
      rw [dropUnused_rules hsame hok hi, if_pos hk]
    have hlt := mem_used_lt hi
    have he : pr.states[i]? = some pr.states[i] := List.getElem?_eq_getElem hlt
    by_cases hk : 0 ≤ k
    · rw [hpos k hk, List.mem_map] at hr
      obtain ⟨r0, h0, rfl⟩ := hr
      obtain ⟨h1, h2⟩ := h i k r0 h0
      rw [remapRule_node]
      refine ⟨h1, h2.imp id fun ⟨h3, h4, h5⟩ => ⟨h3, h4, fun k' hk' => ?_⟩⟩
      obtain ⟨r', h6, h7, h8⟩ := h5 k' hk'
      refine ⟨remapRule (newNumber pr fs) r', ?_, by rw [remapRule_node, h7], remapRule_state _ h8⟩
      rw [hpos k' (hft _ k' hk')]
      exact List.mem_map_of_mem h6
    · rw [dropUnused_rules hsame hok hi, if_neg hk, he] at hr
      simp only at hr
      split at hr
      · cases hr
      · obtain ⟨r0, h0, rfl⟩ := List.mem_map.mp hr
        obtain ⟨h1, h2⟩ := h i k r0 h0
        rw [remapRule_iter_node]
        exact ⟨h1, .inl (h2.resolve_right fun h3 => hk h3.2.1.1)⟩
  · rw [PR.rules_of_ge (by rw [dropUnused_length]; omega)] at hr
    cases hr

theorem tableOf_means {g : Grammar} {m : Table} (h : Means g.tables m) (hlen : ∀ s, g.tables.states.length ≤ s → ∀ k, m s k = []) :
    m = tableOf g := by
  funext s k
  unfold tableOf
  split
  · rename_i hs
    exact hlen s (List.getElem?_eq_none_iff.mp hs) k
  · rename_i gs hs
    rw [h.find s gs hs [k]]
    by_cases hk : m s k = [] <;> simp [firstRules, hk]

theorem leads_of_accepts {m : Table} {s : Int} {v : List Sym} (h : Accepts m s v) : ∀ {x : Sym} {w : List Sym}, v = x :: w → ∀ {k : Int},
    0 ≤ k → (∀ (s1 : Nat) (k1 : Int) (r : Rule), r ∈ m s1 k1 → Rule.reads r = some x → m s1 k ≠ []) →
    (∀ (s1 : Nat) (k1 : Int), ∀ r ∈ m s1 k1, r.token = k1) → ∃ n : Nat, s = n ∧ Leads m n k := by
  induction h with
  | final => intro x w h; cases h
  | @skip s0 k0 r0 w0 hr h1 h2 ih =>
    intro x w hv k hk hx ht
    obtain ⟨n, h3, h4⟩ := ih hv hk hx ht
    have h5 : r0.token = anyToken := by
      unfold Rule.reads at h1
      split at h1
      · split at h1
        · assumption
        · split at h1 <;> cases h1
      · cases h1
    have h6 := ht _ _ _ hr
    rw [h5] at h6
    subst h6
    exact ⟨_, rfl, .skip hr h3 h4⟩
  | read hr h1 h2 ih =>
    intro x w hv k hk hx ht
    cases hv
    exact ⟨_, rfl, .here hk (hx _ _ _ hr h1)⟩

/-- Tables of a compiled grammar. -/
theorem compiled_tables {upper : List Nat → List Nat} {find : Nat → List Nat → List Nat} {ts : List GToken}
    {bodies : List Chunk} {order1 order2 order3 : List Nat} {fuel : Nat} {g : Grammar}
    (h : Compiled upper find ts bodies order1 order2 order3 fuel g) (hloop : ∀ c ∈ bodies, LoopOk true c)
    (hsafe : SafeMachines bodies order2 order3 fuel) :
    Means g.tables (tableOf g) ∧ RulesClosed g (tableOf g) ∧ (∃ heads, Opens g (tableOf g) heads) ∧ g.firsts.length = bodies.length ∧
      ∀ (i : Nat) (c : Chunk) (f : Nat), bodies[i]? = some c → g.firsts[i]? = some f →
        ∀ w, Accepts (tableOf g) f w ↔ w ∈ lang c := by
  obtain ⟨ttypes, ft, pr, fs, pr', -, -, -, hres, hb, -, has, hg, -⟩ := compile_steps h.ok
  have hid : (bodies.map some).filterMap id = bodies := by simp
  rw [hid] at hres hb
  obtain ⟨hs1, hs2, hs3⟩ := resolved_sets (fun c hc => (h.wf c hc).1) h.defined h.order2 h.order3 hres
  have hmem : ∀ i < bodies.length, (bodies[i]?).getD .eoi ∈ bodies := by
    intro i hi
    rw [List.getElem?_eq_getElem hi]
    exact List.getElem_mem hi
  have hft : ∀ i, ∀ k ∈ ft i, 0 ≤ k := by
    intro i k hk
    by_cases hi : i < bodies.length
    · refine starts_nonneg (n := bodies.length) ?_ ?_ ((hs1 i hi k).mp hk) hi
      · intro i hi w hw
        exact lang_noEoi _ (loopOk_noEoi true _ (hloop _ (hmem i hi))) w hw
      · intro i hi w hw j hj
        exact h.defined _ (hmem i hi) j (lang_refs _ w hw j hj)
    · rw [hs3 i (by omega)] at hk; simp at hk
  have hrows := buildNodes_rows hft bodies (fun c hc => ⟨(h.wf c hc).1, loopOk_noEoi true _ (hloop c hc)⟩) ok_empty rows_empty hb
  obtain ⟨pr2, fs2, hb2, hl, hacc⟩ := C29_machine_language_partial ft bodies hft
    (fun c hc => ⟨(h.wf c hc).1, (h.wf c hc).2, hloop c hc⟩) (fun c hc i hi => hs2 i (h.defined c hc i hi))
  rw [hb] at hb2; cases hb2
  obtain ⟨pr2, fs2, hb2, hgr, -, hfirst⟩ := buildNodes_spec ft bodies (fun c hc => (h.wf c hc).1) ok_empty
  rw [hb] at hb2; cases hb2
  obtain ⟨hre, -⟩ := assignStateTypes_spec fs has
  have hok' := hre.ok hgr.ok
  obtain ⟨hmeans, hfs, hslen, -⟩ := buildGrammar_means hok' hg
  have hrules : pr'.rules = pr.rules := by funext s k; exact hre.rules s k
  have hlt : ∀ f ∈ fs, f < pr'.states.length := by
    intro f hf
    obtain ⟨i, hi, rfl⟩ := List.getElem_of_mem hf
    obtain ⟨p, q, -, -, -, -, h1, h2⟩ := hfirst i _ _ (List.getElem?_eq_getElem (by rw [← hl]; exact hi)) (List.getElem?_eq_getElem hi)
    have := h2.len
    rw [hre.len]; omega
  have htab := tableOf_means hmeans (fun s hs k => PR.rules_of_ge (by omega) k)
  rw [← htab]
  have hok2 := dropUnused_ok (firsts := fs) hok'
  have hrows2 : Rows ft (pr'.dropUnused fs).1 :=
    dropUnused_rows hft hok' (hrows.congr fun s k => by rw [hrules])
  have hflen : g.firsts.length = bodies.length := by rw [hfs, dropUnused_firsts, List.length_map, hl]
  have hacc2 : ∀ (i : Nat) (c : Chunk) (f : Nat), bodies[i]? = some c → g.firsts[i]? = some f →
        ∀ w, Accepts (pr'.dropUnused fs).1.rules f w ↔ w ∈ lang c := by
    intro i c f hc hf w
    have hi : i < fs.length := by rw [hl]; exact (List.getElem?_eq_some_iff.mp hc).1
    rw [hfs] at hf
    rw [C28_same_words_partial pr' fs hok' hlt ((hsafe ft pr fs hres hb).retyped hre) i fs[i] f
      (List.getElem?_eq_getElem hi) hf w, hrules]
    exact hacc i c _ hc (List.getElem?_eq_getElem hi) w
  have hlang : ∀ (n f : Nat) (w : List Sym), g.firsts[n]? = some f → Accepts (pr'.dropUnused fs).1.rules f w →
      n < bodies.length ∧ w ∈ lang ((bodies[n]?).getD .eoi) := by
    intro n f w hf hw
    have hn : n < bodies.length := by rw [← hflen]; exact (List.getElem?_eq_some_iff.mp hf).1
    refine ⟨hn, ?_⟩
    rw [List.getElem?_eq_getElem hn]
    exact (hacc2 n _ f (List.getElem?_eq_getElem hn) hf w).mp hw
  refine ⟨hmeans, ⟨fun s k r hr => ?_, fun n f hf => ?_⟩,
    ⟨fun n k => n < bodies.length ∧ Starts (fun i => (bodies[i]?).getD .eoi) n k, ⟨hmeans.token, fun s k hne => ?_, fun s k r hr => ?_,
      fun s k r n hr hn k' ⟨h1, h2⟩ => ?_, fun n f k w hf hw => ?_, fun n f j w k hf hw ⟨hj, hk⟩ => ?_, ?_⟩⟩, hflen, hacc2⟩
  · have ht := hok2.tgt s k r hr
    by_cases h0 : r.state = finalState
    · exact .inl h0
    · right
      have h1 : r.state.toNat < g.tables.states.length := by
        have := ht.1
        rw [hslen]
        unfold finalState at *; omega
      refine ⟨r.state.toNat, _, ?_, List.getElem?_eq_getElem h1⟩
      have := ht.1
      unfold finalState at *; omega
  · rw [hfs, dropUnused_firsts, List.getElem?_map, Option.map_eq_some_iff] at hf
    obtain ⟨f0, hf0, rfl⟩ := hf
    have hused := (used_iff hok' hlt f0).mpr (.inl (List.mem_of_getElem? hf0))
    have := newNumber_lt hused
    rw [← dropUnused_length, ← hslen] at this
    exact ⟨_, List.getElem?_eq_getElem this⟩
  · obtain ⟨r, hr⟩ := List.exists_mem_of_ne_nil _ hne
    exact (hrows2 s k r hr).1
  · exact (hrows2 s k r hr).2.imp id fun h3 => ⟨h3.1, h3.2.1.1⟩
  · rcases (hrows2 s k r hr).2 with h3 | ⟨-, -, h3⟩
    · rw [hn] at h3; unfold sameNode at h3; omega
    · obtain ⟨r', h4, h5, h6⟩ := h3 k' (by rw [hn]; exact (hs1 n h1 k').mpr h2)
      exact ⟨r', h4, by rw [h5, hn], h6⟩
  · obtain ⟨h1, h2⟩ := hlang n f _ hf hw
    exact ⟨h1, .tok h2⟩
  · obtain ⟨h1, h2⟩ := hlang n f _ hf hw
    exact ⟨h1, .node h2 hk⟩
  · intro s n f k r hr hn hf
    have hk : 0 ≤ k ∧ k ∈ ft n := by
      rcases (hrows2 s k r hr).2 with h3 | ⟨-, h3, -⟩
      · rw [hn] at h3; unfold sameNode at h3; omega
      · rw [hn] at h3; exact h3
    have hnl : n < bodies.length := by
      by_contra hge
      rw [hs3 n (by omega)] at hk
      simp at hk
    have hst := (hs1 n hnl k).mp hk.2
    have hk := hk.1
    clear hr hn
    induction hst generalizing f with
    | @tok i t w hw =>
      rw [List.getElem?_eq_getElem hnl] at hw
      have hx : ∀ (s1 : Nat) (k1 : Int) (r : Rule), r ∈ (pr'.dropUnused fs).1.rules s1 k1 → Rule.reads r = some (.tok t) →
          (pr'.dropUnused fs).1.rules s1 (t : Int) ≠ [] := by
        intro s1 k1 r hr hx
        have h5 := hmeans.token _ _ _ hr
        unfold Rule.reads at hx
        split at hx
        · split at hx
          · cases hx
          · split at hx
            · cases hx
              have : ((r.token.toNat : Nat) : Int) = k1 := by omega
              rw [this]
              exact List.ne_nil_of_mem hr
            · cases hx
        · cases hx
      obtain ⟨x, h1, h2⟩ := leads_of_accepts ((hacc2 i _ f (List.getElem?_eq_getElem hnl) hf _).mpr hw) rfl hk hx hmeans.token
      have : f = x := by omega
      subst this; exact h2
    | eoi => exact absurd hk (by decide)
    | @node i j w k hw hj ih =>
      rw [List.getElem?_eq_getElem hnl] at hw
      have hjl : j < bodies.length := h.defined _ (List.getElem_mem hnl) j (lang_refs _ _ hw j (by simp))
      have hx : ∀ (s1 : Nat) (k1 : Int) (r : Rule), r ∈ (pr'.dropUnused fs).1.rules s1 k1 → Rule.reads r = some (.node j) →
          (pr'.dropUnused fs).1.rules s1 k ≠ [] := by
        intro s1 k1 r hr hx
        unfold Rule.reads at hx
        split at hx
        · split at hx
          · cases hx
          · split at hx <;> cases hx
        · rename_i hne
          cases hx
          rcases (hrows2 s1 k1 r hr).2 with h3 | ⟨-, -, h3⟩
          · exact absurd h3 hne
          · obtain ⟨r', h4, -⟩ := h3 k ((hs1 _ hjl k).mpr hj)
            exact List.ne_nil_of_mem h4
      obtain ⟨x, h1, h2⟩ := leads_of_accepts ((hacc2 i _ f (List.getElem?_eq_getElem hnl) hf _).mpr hw) rfl hk hx hmeans.token
      have : f = x := by omega
      subst this; exact h2

end Verif.Proof
