/-
When one token is enough to choose a rule, tokens determine the run and the tree.
-/
import Verif.Proof.OneTokenParse

namespace Verif.Proof

open Verif.Model Verif.Spec Verif.Props

variable {g : Grammar} {m : Table} {upper : List Nat → List Nat} {also : Int → Int → Prop} {node : Nat → Nat}
  {next after : Nat → Int → Prop}

/-- What a run does next. -/
theorem Way.next_step {p : Part} {rest : List Part} {ks : List (Token × Nat)} {T : List Item} (h : Way g m (p :: rest) ks T) :
    (p.state = finalState ∧ ((rest = [] ∧ ks = [] ∧ T = p.items) ∨
      ∃ q rest', rest = q :: rest' ∧ Way g m ({ q with items := q.items ++ [.node p.index p.start p.items] } :: rest') ks T)) ∨
    ∃ s : Nat, p.state = s ∧ ((∃ r ∈ m s anyToken, Way g m ({ p with state := r.state } :: rest) ks T) ∨
      ∃ (t : Token) (k : Nat) (ks' : List (Token × Nat)), ks = (t, k) :: ks' ∧ ∃ r ∈ m s k,
        (r.node = sameNode ∧ Way g m ({ p with state := r.state, items := p.items ++ [.tok t] } :: rest) ks' T) ∨
        ∃ n f : Nat, r.node = n ∧ g.firsts[n]? = some f ∧ Way g m (⟨f, n, some t, []⟩ :: { p with state := r.state } :: rest) ks T) := by
  cases h with
  | done => exact .inl ⟨rfl, .inl ⟨rfl, rfl, rfl⟩⟩
  | pop h => exact .inl ⟨rfl, .inr ⟨_, _, rfl, h⟩⟩
  | skip hr hn h => exact .inr ⟨_, rfl, .inl ⟨_, hr, h⟩⟩
  | read hr hn h => exact .inr ⟨_, rfl, .inr ⟨_, _, _, rfl, _, hr, .inl ⟨hn, h⟩⟩⟩
  | push hr hn hf h => exact .inr ⟨_, rfl, .inr ⟨_, _, _, rfl, _, hr, .inr ⟨_, _, hn, hf, h⟩⟩⟩

/-- Tokens with keys that they are meant by. -/
def AllReadable (g : Grammar) (upper : List Nat → List Nat) (m : Table) (also : Int → Int → Prop) (ks : List (Token × Nat)) : Prop :=
  ∀ x ∈ ks, Readable g upper m also x.1 x.2

theorem keyed_readable {R : Token → Nat → Prop} {P : Token → Prop} {ts : List Token} {ks : List (Token × Nat)} (h : KeyedBy R P ts ks) :
    ∀ x ∈ ks, R x.1 x.2 := by
  induction h with
  | nil => simp
  | side _ _ ih => exact ih
  | tok h1 _ ih => exact List.forall_mem_cons.mpr ⟨h1, ih⟩

/-- The rule of a state for a token does not depend on the key. -/
theorem rule_unique (hm : Means g.tables m) (hd : DistinctLiterals g) (hone : OneToken g m node next after also) {s : Nat}
    (hs : s < g.tables.states.length) {t : Token} {k k' : Nat} (h : Readable g upper m also t k) (h' : Readable g upper m also t k')
    {r r' : Rule} (hr : r ∈ m s k) (hr' : r' ∈ m s k') : r = r' := by
  have h1 := findRules_takes hm hd h hs (List.ne_nil_of_mem hr) (fun _ h7 h8 => hone.literal s k _ (List.ne_nil_of_mem hr) h7 h8)
  have h2 := findRules_takes hm hd h' hs (List.ne_nil_of_mem hr') (fun _ h7 h8 => hone.literal s k' _ (List.ne_nil_of_mem hr') h7 h8)
  rw [h1, single_of (hone.single s k) hr, single_of (hone.single s k') hr'] at h2
  simpa using h2

/-- No rule for the key to come if a rule without a token is needed. -/
theorem skip_needed (hp : Predicts g m node next after) (hone : OneToken g m node next after also) {s : Nat} {p : Part} {rest : List Part}
    {ks : List (Token × Nat)} {T : List Item} {r : Rule} (hps : p.state = s) (hst : Stacked node next after (p :: rest))
    (hr : r ∈ m s anyToken) (hw : Way g m ({ p with state := r.state } :: rest) ks T) :
    m s (nextKey ks) = [] ∧ ∀ k', also (nextKey ks) k' → m s k' = [] := by
  obtain ⟨ps, pi, pst, pits⟩ := p
  dsimp only at hps hw
  subst hps
  obtain ⟨p', rest', h1, h2⟩ := way_next hp hw (hst.moved hp hr)
  cases h1
  dsimp only at h2
  have h3 := hst.1 s rfl
  dsimp only at h3
  rw [← h3] at h2
  exact hone.skip s r hr _ h2

/-- Tokens determine the tree. -/
theorem way_unique (hm : Means g.tables m) (hd : DistinctLiterals g) (hcl : ∀ (s : Nat) (k : Int), m s k ≠ [] → s < g.tables.states.length)
    (hp : Predicts g m node next after) (hone : OneToken g m node next after also) {fr : List Part} {ks : List (Token × Nat)} {T : List Item}
    (h : Way g m fr ks T) : ∀ (ks' : List (Token × Nat)) (T' : List Item), Way g m fr ks' T' → ks'.map (·.1) = ks.map (·.1) →
      AllReadable g upper m also ks → AllReadable g upper m also ks' → Stacked node next after fr → T = T' := by
  induction h with
  | done =>
    intro ks' T' h' hks hR hR' hst
    rcases h'.next_step with ⟨-, ⟨-, -, rfl⟩ | ⟨q, rest', h, -⟩⟩ | ⟨s, h1, -⟩
    · rfl
    · cases h
    · simp only [finalState] at h1; omega
  | pop _ ih =>
    intro ks' T' h' hks hR hR' hst
    rcases h'.next_step with ⟨-, ⟨h, -⟩ | ⟨q, rest', h, h2⟩⟩ | ⟨s, h1, -⟩
    · cases h
    · cases h
      exact ih ks' T' h2 hks hR hR' hst.2.2.content
    · simp only [finalState] at h1; omega
  | @skip s r i st its rest ks T hr hn hw ih =>
    intro ks' T' h' hks hR hR' hst
    rcases h'.next_step with ⟨h, -⟩ | ⟨s', h1, ⟨r', hr', h2⟩ | ⟨t, k, ks1, rfl, r', hr', -⟩⟩
    · simp only [finalState] at h; omega
    · have : s' = s := by simpa using h1.symm
      subst this
      have h3 := single_of (hone.single s' anyToken) hr
      rw [h3] at hr'
      cases List.mem_singleton.mp hr'
      exact ih ks' T' h2 hks hR hR' (hst.moved hp hr)
    · have : s' = s := by simpa using h1.symm
      subst this
      obtain ⟨h3, h4⟩ := skip_needed hp hone rfl hst hr hw
      cases ks with
      | nil => cases hks
      | cons x ks =>
        obtain ⟨t2, k2⟩ := x
        simp only [List.map_cons, List.cons.injEq] at hks
        obtain ⟨rfl, -⟩ := hks
        have hx := hR (t, k2) (by simp)
        have hx' := hR' (t, k) (by simp)
        rw [nextKey] at h3 h4
        by_cases hkk : k = k2
        · subst hkk
          rw [h3] at hr'; cases hr'
        · rw [h4 k (hx.others k hkk hx'.meant)] at hr'; cases hr'
  | @read s t k r i st its rest ks T hr hn hw ih =>
    intro ks' T' h' hks hR hR' hst
    have hx := hR (t, k) (by simp)
    rcases h'.next_step with ⟨h, -⟩ | ⟨s', h1, ⟨r', hr', h2⟩ | ⟨t', k', ks1, rfl, r', hr', h2⟩⟩
    · simp only [finalState] at h; omega
    · have : s' = s := by simpa using h1.symm
      subst this
      obtain ⟨h3, h4⟩ := skip_needed hp hone rfl hst hr' h2
      cases ks' with
      | nil => cases hks
      | cons x ks' =>
        obtain ⟨t2, k2⟩ := x
        simp only [List.map_cons, List.cons.injEq] at hks
        obtain ⟨rfl, -⟩ := hks
        have hx' := hR' (t2, k2) (by simp)
        rw [nextKey] at h3 h4
        by_cases hkk : k = k2
        · subst hkk
          rw [h3] at hr; cases hr
        · rw [h4 k (hx'.others k hkk hx.meant)] at hr; cases hr
    · have : s' = s := by simpa using h1.symm
      subst this
      simp only [List.map_cons, List.cons.injEq] at hks
      obtain ⟨rfl, hks⟩ := hks
      have hx' := hR' (t', k') (by simp)
      have : r = r' := rule_unique hm hd hone (hcl s' k (List.ne_nil_of_mem hr)) hx hx' hr hr'
      subst this
      rcases h2 with ⟨-, h2⟩ | ⟨n, f, h2, -⟩
      · exact ih ks1 T' h2 hks (fun x hx => hR x (by simp [hx])) (fun x hx => hR' x (by simp [hx])) (hst.moved hp hr)
      · rw [hn] at h2; simp only [sameNode] at h2; omega
  | @push s t k r n f i st its rest ks T hr hn hf hw ih =>
    intro ks' T' h' hks hR hR' hst
    have hx := hR (t, k) (by simp)
    rcases h'.next_step with ⟨h, -⟩ | ⟨s', h1, ⟨r', hr', h2⟩ | ⟨t', k', ks1, rfl, r', hr', h2⟩⟩
    · simp only [finalState] at h; omega
    · have : s' = s := by simpa using h1.symm
      subst this
      obtain ⟨h3, h4⟩ := skip_needed hp hone rfl hst hr' h2
      cases ks' with
      | nil => cases hks
      | cons x ks' =>
        obtain ⟨t2, k2⟩ := x
        simp only [List.map_cons, List.cons.injEq] at hks
        obtain ⟨rfl, -⟩ := hks
        have hx' := hR' (t2, k2) (by simp)
        rw [nextKey] at h3 h4
        by_cases hkk : k = k2
        · subst hkk
          rw [h3] at hr; cases hr
        · rw [h4 k (hx'.others k hkk hx.meant)] at hr; cases hr
    · have : s' = s := by simpa using h1.symm
      subst this
      have hks0 := hks
      simp only [List.map_cons, List.cons.injEq] at hks
      obtain ⟨rfl, hks⟩ := hks
      have hx' := hR' (t', k') (by simp)
      have : r = r' := rule_unique hm hd hone (hcl s' k (List.ne_nil_of_mem hr)) hx hx' hr hr'
      subst this
      rcases h2 with ⟨h2, -⟩ | ⟨n', f', h2, h3, h4⟩
      · rw [hn] at h2; simp only [sameNode] at h2; omega
      · have : n' = n := by rw [hn] at h2; omega
        subst this
        rw [hf] at h3
        cases h3
        exact ih _ T' h4 hks0 hR hR' (hst.pushed hp hr hn hf)

end Verif.Proof
