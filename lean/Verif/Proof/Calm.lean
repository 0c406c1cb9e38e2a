/-
Grammars in which no branch can be overwritten during a lookahead.
-/
import Verif.Proof.Conflict

namespace Verif.Proof

open Verif.Model Verif.Spec Verif.Props
open Verif.Model.Tree (bindRun)

variable {g : Grammar} {upper : List Nat → List Nat} {tok : Option Token}

/-- No conflicts for the token in states that can be reached before using it. -/
def Quiet (g : Grammar) (upper : List Nat → List Nat) (tok : Option Token) (Q : List Int → Prop) : Prop :=
  (∀ s rest, Q (s :: rest) → ∀ rules, findRules g upper tok s = some rules → rules.length ≤ 1) ∧
  ∀ st r st' u, Q st → Move g upper tok st r st' u → Q st'

theorem quiet_trace {Q : List Int → Prop} (hq : Quiet g upper tok Q) (fuel : Nat) {q : List Branch} {o o' : Traced}
    (hl : q.length ≤ 1) (hQ : ∀ b ∈ q, Q (statesOf b.stack)) (h : traceQueue g upper tok fuel q o = .done o') :
    o'.next.length ≤ o.next.length + q.length := by
  induction fuel generalizing q o with
  | zero => simp [traceQueue] at h
  | succ fuel ih =>
    cases q with
    | nil => cases h; simp
    | cons b q =>
      have hq0 : q = [] := List.length_eq_zero_iff.mp (by simpa using hl)
      subst hq0
      rw [traceQueue] at h
      cases hst : b.stack with
      | nil =>
        rw [hst] at h
        have := ih (q := []) (by simp) (by simp) h
        simpa using Nat.le_succ_of_le this
      | cons top rest =>
        rw [hst] at h
        dsimp only at h
        rw [orPanic_done] at h
        obtain ⟨rules, hr, h⟩ := h
        have hQb := hQ b (by simp)
        rw [hst] at hQb
        have h1 := hq.1 _ _ hQb rules hr
        match rules, hr, h1, h with
        | [], _, _, h =>
          have := ih (q := []) (by simp) (by simp) h
          simpa using Nat.le_succ_of_le this
        | [r], hr, _, h =>
          dsimp only at h
          rw [orPanic_done] at h
          obtain ⟨⟨q1, o1⟩, hu, h⟩ := h
          simp only [useRules, Option.bind_eq_some_iff] at hu
          obtain ⟨⟨x, c⟩, hx, hu⟩ := hu
          obtain ⟨e1, e2⟩ := useRule_some.mp hx
          rw [hst] at e1
          have hmv : Move g upper tok (statesOf (top :: rest)) r (statesOf x.stack) c := applyQuiet_move hr (by simp) e1
          dsimp only at hu
          split at hu
          · cases hu
            have := ih (q := []) (by simp) (by simp) h
            simpa using this
          · split at hu
            · cases hu
              have := ih (q := []) (by simp) (by simp) h
              simpa using Nat.le_succ_of_le this
            · cases hu
              have := ih (q := [x]) (by simp) (by
                intro b' hb'
                rw [List.mem_singleton] at hb'
                subst hb'
                exact hq.2 _ _ _ _ hQb hmv) h
              simpa using this

theorem quiet_fits {Q : List Int → Prop} (hq : Quiet g upper tok Q) (fuel : Nat) (L : List Branch) (n : Nat) {o : Traced}
    (hQ : ∀ b ∈ L, Q (statesOf b.stack)) (hn : o.next.length ≤ n) : Fits g upper tok fuel n L o := by
  induction L generalizing n o with
  | nil => trivial
  | cons b L ih =>
    refine ⟨hn, fun o' h => ih (n + 1) (fun b' hb' => hQ b' (by simp [hb'])) ?_⟩
    have := quiet_trace hq fuel (q := [b]) (by simp) (fun b' hb' => by
      rw [List.mem_singleton] at hb'; subst hb'; exact hQ b' (by simp)) h
    simp only [List.length_singleton] at this
    omega

theorem rounds_taken {start : Branch} {ts : List (Option Token)} {L : List Branch} (h0 : start.rules = [])
    (h : Rounds g upper start ts L) : ∀ x ∈ L, TakesAll g upper ts (statesOf start.stack) x.rules (statesOf x.stack) := by
  induction h with
  | nil =>
    intro x hx
    rw [List.mem_singleton] at hx
    subst hx
    rw [h0]
    exact .nil
  | step _ htr ih =>
    intro x hx
    obtain ⟨⟨s1, -, -⟩, -⟩ := traceEach_spec _ _ htr
    rcases s1 x hx with hx | ⟨b, hb, rs, e1, e2⟩
    · cases hx
    · rw [e1]
      exact takesAll_snoc (ih b hb) e2

theorem takes_quiet {Q : List Int → Prop} (hq : ∀ st r st' u, Q st → Move g upper tok st r st' u → Q st') {st st' : List Int}
    {rs : List Rule} (h : Takes g upper tok st rs st') (h0 : Q st) : Q st' := by
  induction h with
  | use hm => exact hq _ _ _ _ h0 hm
  | go hm _ ih => exact ih (hq _ _ _ _ h0 hm)

theorem takesAll_quiet {Q : List Int → Prop} (hq : ∀ tok st r st' u, Q st → Move g upper tok st r st' u → Q st')
    {ts : List (Option Token)} {st st' : List Int} {rs : List Rule} (h : TakesAll g upper ts st rs st') (h0 : Q st) : Q st' := by
  induction h with
  | nil => exact h0
  | cons h1 _ ih => exact ih (takes_quiet (hq _) h1 h0)

/-- If nothing bad can happen after the first move of a lookahead then the lookahead is safe. -/
theorem safe_of_quiet {Q : List Int → Prop} (hq : ∀ tok, Quiet g upper tok Q)
    (h0 : ∀ s tok rules, findRules g upper tok s = some rules → 1 < rules.length →
      ∀ r st' u, Move g upper tok [s] r st' u → Q st') : SafeLookahead g upper := by
  intro f tok0 rules hf hl ts L hr tok dead fuel
  refine quiet_fits (hq tok) fuel L 0 (fun b hb => ?_) (by simp)
  have h1 := rounds_taken rfl hr b hb
  generalize hts : tok0 :: ts = ts' at h1
  generalize hst : statesOf (Branch.stack ⟨[f], []⟩) = st at h1
  have hst : [f.state] = st := hst
  generalize b.rules = rs at h1
  cases h1 with
  | nil => cases hts
  | cons ht hta =>
    cases hts
    refine takesAll_quiet (fun tok => (hq tok).2) hta ?_
    subst hst
    cases ht with
    | use hm => exact h0 _ _ _ hf hl _ _ _ hm
    | go hm ht => exact takes_quiet (hq _).2 ht (h0 _ _ _ hf hl _ _ _ hm)

theorem safe_of_single (hm : g.tables.multi = []) : SafeLookahead g upper := by
  intro f tok0 rules hf hl
  have := findRules_single hm hf
  omega

/-- Rules found in a state are rules of the table under one key, or the rule made up for a side token. -/
theorem findRules_table {m : Nat → Int → List Rule} (hm : Means g.tables m) {s : Int} {rules : List Rule}
    (h : findRules g upper tok s = some rules) :
    (∃ t, tok = some t ∧ g.isSideType t.type = true ∧ rules = [⟨t.type, repeatState, sameNode⟩]) ∨
      ∃ n : Nat, s = n ∧ n < g.tables.states.length ∧ (rules = [] ∨ ∃ k, rules = m n k) := by
  rw [findRules, Option.bind_eq_some_iff] at h
  obtain ⟨gs, hgs, h⟩ := h
  have hn : ∃ n : Nat, s = n ∧ g.tables.states[n]? = some gs := by
    unfold Go.index at hgs
    split at hgs
    · exact ⟨s.toNat, by omega, hgs⟩
    · cases hgs
  obtain ⟨n, rfl, hn⟩ := hn
  have hfirst : ∀ keys : List Int, firstRules (m n) keys = [] ∨ ∃ k, firstRules (m n) keys = m n k := by
    intro keys
    unfold firstRules
    cases hfs : ((keys.map (m n)).find? fun x => decide (x ≠ [])) with
    | none => exact .inl rfl
    | some l =>
      obtain ⟨k, -, hk⟩ := List.mem_map.mp (List.mem_of_find?_eq_some hfs)
      exact .inr ⟨k, hk.symm⟩
  have key : ∀ {keys}, findRulesBy g.tables gs keys = some rules → rules = [] ∨ ∃ k, rules = m n k := by
    intro keys h
    rw [hm.find n gs hn] at h
    cases h
    exact hfirst keys
  cases tok with
  | none =>
    rw [Option.bind_eq_some_iff] at h
    obtain ⟨keys, -, h⟩ := h
    exact .inr ⟨n, rfl, (List.getElem?_eq_some_iff.mp hn).1, key h⟩
  | some t =>
    dsimp only at h
    split at h
    · rename_i hs
      cases h
      exact .inl ⟨t, rfl, hs, rfl⟩
    · rw [Option.bind_eq_some_iff] at h
      obtain ⟨keys, -, h⟩ := h
      exact .inr ⟨n, rfl, (List.getElem?_eq_some_iff.mp hn).1, key h⟩

theorem enters_move {r : Rule} {s : Int} {rest st' : List Int} {u : Bool} {S : Int → Prop}
    (hm : Move g upper tok (s :: rest) r st' u) (he : ∀ x ∈ enters g r s, x = -1 ∨ S x) (hr : ∀ x ∈ rest, x = -1 ∨ S x) :
    ∀ x ∈ st', x = -1 ∨ S x := by
  obtain ⟨s', rest', rules, top, e1, -, -, e4, rfl, -⟩ := hm
  simp only [List.cons.injEq] at e1
  obtain ⟨rfl, rfl⟩ := e1
  intro x hx
  have hx := (List.dropWhile_sublist _).subset hx
  rcases List.mem_append.mp hx with hx | hx
  · rcases e4 with ⟨-, rfl⟩ | ⟨i, f, e5, e6, rfl⟩
    · rw [List.mem_singleton] at hx
      exact he x (by rw [hx]; simp [enters])
    · apply he x
      simp only [List.mem_cons, List.not_mem_nil, or_false] at hx
      have h0 : 0 ≤ r.node := by omega
      have h1 : r.node.toNat = i := by omega
      rw [enters, if_pos h0, h1, e6]
      simp only [List.mem_cons, List.not_mem_nil, or_false]
      tauto
  · exact hr x hx

/-- A lookahead is safe if there are no conflicts in states that can be entered during it. -/
theorem safe_of_calm {m : Nat → Int → List Rule} (hm : Means g.tables m) {S : Int → Prop} (h : CalmSet g m S) :
    SafeLookahead g upper := by
  have side : ∀ {t : Token} {s : Int} {x}, g.isSideType t.type = true → x ∈ enters g ⟨t.type, repeatState, sameNode⟩ s → x = s := by
    intro t s x _ hx
    simpa [enters, after, repeatState, sameNode] using hx
  refine safe_of_quiet (Q := fun st => ∀ x ∈ st, x = -1 ∨ S x) (fun tok => ⟨?_, ?_⟩) ?_
  · intro s rest hQ rules hr
    rcases findRules_table hm hr with ⟨t, rfl, -, rfl⟩ | ⟨n, rfl, hn, rfl | ⟨k, rfl⟩⟩
    · simp
    · simp
    · rcases hQ n (by simp) with h1 | h1
      · omega
      · exact (h.2 n hn h1 k).1
  · intro st r st' u hQ hmv
    have hmv' := hmv
    obtain ⟨s, rest, rules, top, rfl, e2, e3, -⟩ := hmv'
    refine enters_move hmv ?_ (fun x hx => hQ x (by simp [hx]))
    rcases findRules_table hm e2 with ⟨t, rfl, ht, rfl⟩ | ⟨n, rfl, hn, rfl | ⟨k, rfl⟩⟩
    · rw [List.mem_singleton] at e3
      subst e3
      intro x hx
      rw [side ht hx]
      exact hQ s (by simp)
    · cases e3
    · rcases hQ n (by simp) with h1 | h1
      · omega
      · exact (h.2 n hn h1 k).2 r e3
  · intro s tok rules hr hl r st' u hmv
    have hmv' := hmv
    obtain ⟨s', rest, rules', top, e1, e2, e3, -⟩ := hmv'
    simp only [List.cons.injEq] at e1
    obtain ⟨rfl, rfl⟩ := e1
    rw [hr] at e2; cases e2
    refine enters_move hmv ?_ (fun x hx => by cases hx)
    rcases findRules_table hm hr with ⟨t, rfl, ht, rfl⟩ | ⟨n, rfl, hn, rfl | ⟨k, rfl⟩⟩
    · simp at hl
    · simp at hl
    · exact h.1 n k hn hl k r e3

theorem mem_slice {α : Type} {a x : List α} {lo hi : Int} (h : Go.slice a lo hi = some x) {y : α} (hy : y ∈ x) : y ∈ a := by
  unfold Go.slice at h
  split at h
  · cases h
    exact List.mem_of_mem_drop (List.mem_of_mem_take hy)
  · cases h

theorem findRulesBy_mem {t : Tables} {gs : GState} {keys : List Int} {rs : List Rule} (h : findRulesBy t gs keys = some rs)
    {r : Rule} (hr : r ∈ rs) : r ∈ t.rules := by
  rw [findRulesBy, Option.bind_eq_some_iff] at h
  obtain ⟨rules, h1, h⟩ := h
  rw [Option.bind_eq_some_iff] at h
  obtain ⟨multi, -, h⟩ := h
  have hk : ∀ {key rs'}, findKey t.rules rules multi key = some (some rs') → r ∈ rs' → r ∈ t.rules := by
    intro key rs' h hr
    unfold findKey at h
    dsimp only at h
    split at h
    · rw [Option.map_eq_some_iff] at h
      obtain ⟨x, h2, h3⟩ := h
      cases h3
      exact mem_slice h1 (mem_slice h2 hr)
    · split at h
      · split at h
        · rw [Option.map_eq_some_iff] at h
          obtain ⟨x, h2, h3⟩ := h
          cases h3
          exact mem_slice h2 hr
        · cases h
      · cases h
  induction keys with
  | nil => cases h; cases hr
  | cons k ks ih =>
    rw [findKeys] at h
    split at h
    · exact mem_slice h1 (mem_slice h hr)
    · split at h
      · cases h
      · rename_i hh
        cases h
        exact hk hh hr
      · exact ih h

/-- Rules under a key. -/
def tableRules (t : Tables) (s : Nat) (k : Int) : List Rule :=
  match t.states[s]? with
  | some gs => (findRulesBy t gs [k]).getD []
  | none => []

/-- A check for `CalmSet`. -/
def calmCheck (g : Grammar) (S : List Nat) : Bool :=
  let keys := g.tables.rules.map (·.token)
  let ok (s : Nat) := keys.all fun k => (tableRules g.tables s k).all fun r =>
    (enters g r s).all fun x => decide (x = -1 ∨ x.toNat ∈ S ∧ 0 ≤ x)
  (List.range g.tables.states.length).all fun s =>
    (keys.all (fun k => decide ((tableRules g.tables s k).length ≤ 1)) || (ok s && decide (s ∉ S))) && (decide (s ∉ S) || ok s)

theorem tableRules_eq {m : Nat → Int → List Rule} (hm : Means g.tables m) {s : Nat} (hs : s < g.tables.states.length) (k : Int) :
    m s k = tableRules g.tables s k := by
  rw [tableRules, List.getElem?_eq_getElem hs]
  dsimp only
  rw [hm.find s _ (List.getElem?_eq_getElem hs)]
  unfold firstRules
  by_cases h : m s k = [] <;> simp [h]

theorem calm_of_check {m : Nat → Int → List Rule} (hm : Means g.tables m) {S : List Nat} (h : calmCheck g S = true) :
    CalmSet g m (fun x => x.toNat ∈ S ∧ 0 ≤ x) := by
  have hkey : ∀ {s : Nat} {k : Int} {r : Rule}, s < g.tables.states.length → r ∈ m s k → k ∈ g.tables.rules.map (·.token) := by
    intro s k r hs hr
    refine List.mem_map.mpr ⟨r, ?_, hm.token s k r hr⟩
    have h1 := hm.find s _ (List.getElem?_eq_getElem hs) [k]
    refine findRulesBy_mem h1 ?_
    unfold firstRules
    by_cases h : m s k = []
    · rw [h] at hr; cases hr
    · simpa [h] using hr
  rw [calmCheck] at h
  have h1 : ∀ s < g.tables.states.length, _ := fun s hs => List.all_eq_true.mp h s (List.mem_range.mpr hs)
  simp only [Bool.and_eq_true, Bool.or_eq_true, decide_eq_true_eq] at h1
  have hok : ∀ {s : Nat}, s < g.tables.states.length → ((g.tables.rules.map (·.token)).all fun k => (tableRules g.tables s k).all fun r =>
      (enters g r s).all fun x => decide (x = -1 ∨ x.toNat ∈ S ∧ 0 ≤ x)) = true →
      ∀ k, ∀ r ∈ m s k, ∀ x ∈ enters g r s, x = -1 ∨ x.toNat ∈ S ∧ 0 ≤ x := by
    intro s hs hall k r hr x hx
    have h2 := List.all_eq_true.mp hall k (hkey hs hr)
    rw [tableRules_eq hm hs] at hr
    exact decide_eq_true_eq.mp (List.all_eq_true.mp (List.all_eq_true.mp h2 r hr) x hx)
  have hone : ∀ {s : Nat}, s < g.tables.states.length → ((g.tables.rules.map (·.token)).all
      fun k => decide ((tableRules g.tables s k).length ≤ 1)) = true → ∀ k, (m s k).length ≤ 1 := by
    intro s hs hall k
    by_cases he : m s k = []
    · rw [he]; simp
    · obtain ⟨r, hr⟩ := List.exists_mem_of_ne_nil _ he
      rw [tableRules_eq hm hs]
      exact decide_eq_true_eq.mp (List.all_eq_true.mp hall k (hkey hs hr))
  constructor
  · intro s k hs hl
    rcases (h1 s hs).1 with h2 | h2
    · have := hone hs h2 k
      omega
    · exact fun k' => hok hs h2.1 k'
  · intro s hs hS k
    have hS : s ∈ S := by simpa using hS.1
    have h2 : _ := (h1 s hs).2.resolve_left (fun h => h hS)
    refine ⟨?_, hok hs h2 k⟩
    rcases (h1 s hs).1 with h3 | h3
    · exact hone hs h3 k
    · exact absurd hS h3.2

end Verif.Proof
