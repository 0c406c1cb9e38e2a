/-
Lookahead stops.
-/
import Mathlib.Order.Nat
import Mathlib.Order.ConditionallyCompleteLattice.Basic
import Mathlib.Order.Lattice.Nat
import Verif.Proof.RoundHalts

namespace Verif.Proof

open Verif.Model Verif.Spec Verif.Props
open Verif.Model.Tree (bindRun)

variable {σ : Type} {env : PEnv σ} {μ : σ → Nat} {P : σ → Prop}
  {pull : Nat → σ → TokenTypeSet → Run (σ × Except PErr (Option Token))}

/-- `Supply` with a function that bounds the number of tokens; `P` says that there is a bound. -/
def Feeds (pull : Nat → σ → TokenTypeSet → Run (σ × Except PErr (Option Token))) (μ : σ → Nat) (P : σ → Prop) : Prop :=
  ∀ src types, P src → Halts (fun k _ => pull k src types) (fun x => P x.1 ∧
    match x.2 with
    | .ok (some t) => if t.type = -3 then μ x.1 = 0 else μ x.1 < μ src
    | _ => μ x.1 ≤ μ src)

open Classical in
theorem feeds_of_supply {I : σ → Nat → Prop} (h : Supply pull I) :
    ∃ μ : σ → Nat, Feeds pull μ (fun src => ∃ n, I src n) := by
  have hle : ∀ {src : σ} {n : Nat}, I src n → sInf {n | I src n} ≤ n := fun hi => Nat.sInf_le hi
  refine ⟨fun src => sInf {n | I src n}, ?_⟩
  intro src types hp
  have hi : I src (sInf {n | I src n}) := Nat.sInf_mem hp
  obtain ⟨r, N, h1, h2, h3⟩ := h src _ types hi
  refine ⟨r, ⟨N, fun k _ hk _ => h1 k hk⟩, h2, ?_⟩
  rintro ⟨src', res⟩ hr
  have h4 := h3 src' res hr
  unfold FedAfter at h4
  rcases res with e | (_ | t)
  · obtain ⟨n', h5, h6⟩ := h4
    exact ⟨⟨n', h6⟩, le_trans (hle h6) h5⟩
  · obtain ⟨n', h5, h6⟩ := h4
    exact ⟨⟨n', h6⟩, le_trans (hle h6) h5⟩
  · dsimp only at h4 ⊢
    by_cases ht : t.type = -3
    · rw [if_pos ht] at h4 ⊢
      exact ⟨⟨0, h4⟩, Nat.le_zero.mp (hle h4)⟩
    · rw [if_neg ht] at h4 ⊢
      obtain ⟨n', h5, h6⟩ := h4
      exact ⟨⟨n', h6⟩, lt_of_le_of_lt (hle h6) h5⟩

/-- 1 for a token other than the end of input. -/
def weight : Option Token → Nat
  | none => 0
  | some t => if t.type = -3 then 0 else 1

/-- Number of ordinary tokens in the list. -/
def weights (l : List (Option Token)) : Nat := (l.map weight).sum

@[simp] theorem weights_nil : weights [] = 0 := rfl
@[simp] theorem weights_cons (t : Option Token) (l) : weights (t :: l) = weight t + weights l := by simp [weights]
@[simp] theorem weights_append (a b : List (Option Token)) : weights (a ++ b) = weights a + weights b := by simp [weights]

theorem weight_real {tok : Option Token} (h : Real tok) : weight tok = 1 := by
  obtain ⟨t, rfl, h⟩ := h
  simp [weight, h]

theorem weight_not_real {tok : Option Token} (h : ¬ Real tok) : weight tok = 0 := by
  cases tok with
  | none => rfl
  | some t =>
    have : t.type = -3 := by
      by_contra hc
      exact h ⟨t, rfl, hc⟩
    simp [weight, this]

/-- The token is the end of input. -/
def IsEnd (tok : Option Token) : Prop := ∃ t, tok = some t ∧ t.type = -3

/-- Bound for the number of ordinary tokens that are not used yet. -/
def left (μ : σ → Nat) (pc : PC σ) : Nat := μ pc.src + weights pc.tokens

/-- There are no ordinary tokens after the end of input. -/
def Ends (n : Nat) : List (Option Token) → Prop
  | [] => True
  | t :: l => (IsEnd t → n = 0 ∧ weights l = 0) ∧ Ends n l

theorem ends_suffix {n : Nat} {pre l : List (Option Token)} (h : Ends n (pre ++ l)) : Ends n l := by
  induction pre with
  | nil => exact h
  | cons t pre ih => exact ih h.2

theorem ends_le {n n' : Nat} (hn : n' ≤ n) {l : List (Option Token)} (h : Ends n l) : Ends n' l := by
  induction l with
  | nil => trivial
  | cons t l ih => exact ⟨fun he => ⟨by have := (h.1 he).1; omega, (h.1 he).2⟩, ih h.2⟩

theorem ends_snoc {n n' : Nat} {tok : Option Token} (hn : weight tok + n' ≤ n) (he : IsEnd tok → n' = 0)
    {l : List (Option Token)} (h : Ends n l) : Ends n' (l ++ [tok]) := by
  induction l with
  | nil => exact ⟨fun h' => ⟨he h', rfl⟩, trivial⟩
  | cons t l ih =>
    refine ⟨fun h' => ?_, ih h.2⟩
    obtain ⟨h1, h2⟩ := h.1 h'
    refine ⟨by omega, ?_⟩
    have : weights (l ++ [tok]) = 0 := by
      rw [weights_append, weights_cons, weights_nil, h2]
      omega
    exact this

theorem ends_real {n : Nat} {T l : List (Option Token)} (h : Ends n (T ++ l)) (hw : weights T ≠ 0) : ∃ k, HasReal k T := by
  induction T with
  | nil => exact absurd rfl hw
  | cons t T ih =>
    cases t with
    | none =>
      obtain ⟨k, t, rest, h1, h2⟩ := ih h.2 (by simpa [weight] using hw)
      exact ⟨k + 1, t, rest, by rw [h1]; rfl, h2⟩
    | some t =>
      by_cases ht : t.type = -3
      · have : weights (T ++ l) = 0 := (h.1 ⟨t, rfl, ht⟩).2
        rw [weights_append] at this
        simp [weight, ht] at hw
        omega
      · exact ⟨0, t, T, rfl, ht⟩

/-- What a call of `nextToken` gives. -/
structure Got (μ : σ → Nat) (P : σ → Prop) (pc pc' : PC σ) (r : Except PErr (Option Token)) : Prop where
  stack : pc'.stack = pc.stack
  applied : pc'.applied = pc.applied
  left : left μ pc' + weights (received r) ≤ left μ pc
  ends : ∀ pre, Ends (μ pc.src) (pre ++ pc.tokens) → Ends (μ pc'.src) (pre ++ (received r ++ pc'.tokens))
  toks : ∃ dl, received r ++ pc'.tokens = pc.tokens ++ dl
  inv : P pc'.src

theorem nextLoop_halts (hs : Feeds pull μ P) (types : TokenTypeSet) (pc : PC σ) (hp : P pc.src) :
    Halts (fun k n => nextLoop { env with pull := pull k } types n pc) (fun r => r.1.stack = pc.stack ∧
      r.1.applied = pc.applied ∧ r.1.tokens = pc.tokens ∧ μ r.1.src + weights (received r.2) ≤ μ pc.src ∧
      (∀ tok, r.2 = .ok tok → IsEnd tok → μ r.1.src = 0) ∧ P r.1.src) := by
  have key : ∀ (b : Nat) (pc : PC σ), P pc.src → μ pc.src = b →
      Halts (fun k n => nextLoop { env with pull := pull k } types n pc) (fun r => r.1.stack = pc.stack ∧
        r.1.applied = pc.applied ∧ r.1.tokens = pc.tokens ∧ μ r.1.src + weights (received r.2) ≤ μ pc.src ∧
        (∀ tok, r.2 = .ok tok → IsEnd tok → μ r.1.src = 0) ∧ P r.1.src) := ?_
  · exact key _ pc hp rfl
  clear hp pc
  intro b
  induction b using Nat.strong_induction_on with
  | _ b ih =>
    intro pc hp hb
    subst hb
    refine .step (fun k n => by rw [nextLoop]) ?_
    refine .bind (hs pc.src types hp) ?_
    rintro ⟨src, res⟩ ⟨hp', hmu⟩
    cases res with
    | error e => exact .done ⟨rfl, rfl, rfl, by simpa [received] using hmu, by simp, hp'⟩
    | ok tok =>
      dsimp only
      by_cases hc : tok.any (fun t => t.type = eofTokenType) ∨ (env.g.isSideToken tok ∧ ¬ env.passSides)
      · refine .congr (fun k n => if_pos hc) ?_
        have hreal : ∃ t, tok = some t ∧ t.type ≠ -3 := by
          rcases hc with hc | ⟨hc, -⟩
          · cases tok with
            | none => simp at hc
            | some t =>
              have hc : t.type = -2 := of_decide_eq_true hc
              exact ⟨t, rfl, by omega⟩
          · cases tok with
            | none => simp [Grammar.isSideToken] at hc
            | some t =>
              have hc : env.g.isSideType t.type = true := by simpa [Grammar.isSideToken] using hc
              unfold Grammar.isSideType at hc
              split at hc
              · exact ⟨t, rfl, by omega⟩
              · cases hc
        obtain ⟨t, rfl, ht⟩ := hreal
        have hlt : μ src < μ pc.src := by
          dsimp only at hmu
          rwa [if_neg ht] at hmu
        refine (ih _ hlt { pc with src := src } hp' rfl).mono ?_
        rintro ⟨pc', r⟩ ⟨h1, h2, h3, h4, h5, h6⟩
        exact ⟨h1, h2, h3, le_trans h4 (le_of_lt hlt), h5, h6⟩
      · refine .congr (fun k n => if_neg hc) ?_
        refine .done ⟨rfl, rfl, rfl, ?_, ?_, hp'⟩
        · dsimp only
          cases tok with
          | none => simpa [received, weight] using hmu
          | some t =>
            dsimp only at hmu
            by_cases ht : t.type = -3
            · rw [if_pos ht] at hmu
              simp [received, weight, ht, hmu]
            · rw [if_neg ht] at hmu
              simp [received, weight, ht]; omega
        · rintro tok' h' ⟨t, rfl, ht⟩
          cases h'
          dsimp only at hmu
          rwa [if_pos ht] at hmu

theorem nextToken_halts (hs : Feeds pull μ P) (types : TokenTypeSet) (pc : PC σ) (hp : P pc.src) :
    Halts (fun k n => nextToken { env with pull := pull k } n pc types) (fun r => Got μ P pc r.1 r.2) := by
  cases ht : pc.tokens with
  | cons t ts =>
    refine .congr (g := fun _ _ => .done ({ pc with tokens := ts }, .ok t)) (fun k n => by rw [nextToken, ht]) (.done ?_)
    refine ⟨rfl, rfl, ?_, ?_, ⟨[], by simp [ht, received]⟩, hp⟩
    · simp [left, ht, received]; omega
    · intro pre h
      rw [ht] at h
      exact h
  | nil =>
    refine .congr (g := fun k n => nextLoop { env with pull := pull k } types n pc) (fun k n => by rw [nextToken, ht]) ?_
    refine (nextLoop_halts hs types pc hp).mono ?_
    rintro ⟨pc', r⟩ ⟨h1, h2, h3, h4, h5, h6⟩
    dsimp only at h1 h2 h3 h4 h5 h6
    refine ⟨h1, h2, ?_, ?_, ⟨received r, by simp [h3, ht]⟩, h6⟩
    · simp only [left, h3]; omega
    · intro pre h
      dsimp only
      rw [h3, ht, List.append_nil]
      rw [ht, List.append_nil] at h
      cases r with
      | error e => simp only [received, List.append_nil]; exact ends_le (by omega) h
      | ok tok =>
        simp only [received, weights_cons, weights_nil] at h4
        exact ends_snoc (by omega) (h5 tok rfl) h

variable {m : Nat → Int → List Rule} {w : Int → Nat} {skip : Int → Bool} {s0 : Int}

theorem cost_bound (w : Int → Nat) (skip : Int → Bool) (store : List Branch) :
    ∃ C, ∀ br ∈ store, cost w skip (statesOf br.stack) ≤ C := by
  induction store with
  | nil => exact ⟨0, fun br h => by cases h⟩
  | cons b l ih =>
    obtain ⟨C, ih⟩ := ih
    refine ⟨max C (cost w skip (statesOf b.stack)), fun br h => ?_⟩
    rcases List.mem_cons.mp h with rfl | h
    · exact le_max_right _ _
    · exact le_trans (ih br h) (le_max_left _ _)

/-- What lookahead gives. -/
structure Settled (g : Grammar) (m : Nat → Int → List Rule) (μ : σ → Nat) (P : σ → Prop) (s0 : Int) (pc : PC σ) (tok : Option Token)
    (T : List (Option Token)) (pc' : PC σ) (T' : List (Option Token)) (rules : List Rule) : Prop where
  stack : pc'.stack = pc.stack
  applied : pc'.applied = pc.applied
  left : left μ pc' + weights T' ≤ left μ pc + weight tok + weights T
  ends : Ends (μ pc'.src) (T' ++ pc'.tokens)
  hops : ∃ st, Hops g m [s0] rules st
  fit : Fit rules T'
  toks : ∃ more, T' = T ++ tok :: more
  inv : P pc'.src

theorem chosen_mem {rc : RC} {rules : List Rule} (h : rc.chosen = some rules) :
    ∃ (p : Nat) (br : Branch), rc.store[p]? = some br ∧ br.rules = rules := by
  rw [RC.chosen, Option.bind_eq_some_iff] at h
  obtain ⟨p, -, h⟩ := h
  rw [Option.map_eq_some_iff] at h
  obtain ⟨br, h1, h2⟩ := h
  exact ⟨p, br, h1, h2⟩

theorem conflict_halts (hs : Feeds pull μ P) (hm : Means env.g.tables m) (hd : Descends env.g m w skip) (a : Nat) :
    ∀ (C : Nat) (pc : PC σ) (tok : Option Token) (T : List (Option Token)) (rc : RC), P pc.src → left μ pc + weight tok ≤ a →
      Ends (μ pc.src) ((T ++ [tok]) ++ pc.tokens) → (∀ (p : Nat) br, rc.store[p]? = some br → BranchOk env.g m s0 T br) →
      rc.q = [] →
      (∀ j < rc.len, ∃ p br, rc.cur[j]? = some p ∧ rc.store[p]? = some br ∧ Before w skip T.length tok C br) →
      Halts (fun k n => conflictLoop { env with pull := pull k } n pc tok T rc) (fun r => Settled env.g m μ P s0 pc tok T r.1 r.2.1 r.2.2) := by
  induction a using Nat.strong_induction_on with
  | _ a iha =>
    intro C
    induction C using Nat.strong_induction_on with
    | _ C ihC =>
      intro pc tok T rc hp ha hends hstore hq hlive
      have hreal : Real tok → ∃ k, HasReal k (T ++ [tok]) := by
        intro hr
        refine ends_real hends ?_
        rw [weights_append, weights_cons, weight_real hr]
        omega
      refine .step (fun k n => by rw [conflictLoop]) ?_
      have hround : Halts (fun k n => RC.round { env with pull := pull k } tok n rc)
          (fun rc' => RoundOk env.g m w skip s0 T.length tok C (T ++ [tok]) rc.len rc.len rc' ∧ rc'.q = []) := by
        simp only [round_pull]
        unfold RC.round
        refine overBranches_round (s0 := s0) (T := T ++ [tok]) (C := C) (n0 := T.length) (i := 0) (n := rc.len) hm hd (by simp) hreal
          rc.len _ (by omega) ?_ hq
        refine ⟨?_, ?_, ?_, ?_, ?_⟩
        · intro p br hp
          exact ⟨(hstore p br hp).1, (hstore p br hp).2.append _⟩
        · intro j hj
          exact absurd hj (Nat.not_lt_zero _)
        · intro j _ hj
          exact hlive j hj
        · dsimp only; rw [hq]; simp
        · intro p hp
          dsimp only at hp
          rw [hq] at hp
          cases hp
      refine .bind hround ?_
      rintro rc' ⟨hok, hq'⟩
      have hfin : ∀ pc1 : PC σ, pc1.stack = pc.stack → pc1.applied = pc.applied → left μ pc1 ≤ left μ pc → P pc1.src →
          Ends (μ pc1.src) ((T ++ [tok]) ++ pc1.tokens) →
          Halts (fun _ _ => orPanic rc'.chosen fun rules => Run.done (pc1, T ++ [tok], rules))
            (fun r => Settled env.g m μ P s0 pc tok T r.1 r.2.1 r.2.2) := by
        intro pc1 h1 h2 h3 hp1 h4
        refine .orPanic fun rules hr => .done ?_
        obtain ⟨p, br, hp, rfl⟩ := chosen_mem hr
        obtain ⟨b1, b2⟩ := hok.store p br hp
        exact ⟨h1, h2, by simp; omega, h4, ⟨_, b1⟩, b2, ⟨[], rfl⟩, hp1⟩
      dsimp only
      split
      · exact hfin pc rfl rfl (le_refl _) hp hends
      · rename_i hlen
        split
        · exact hfin pc rfl rfl (le_refl _) hp hends
        · refine .bind (nextToken_halts hs _ pc hp) ?_
          rintro ⟨pc1, r⟩ hgot
          dsimp only at hgot
          cases r with
          | error e =>
            refine hfin pc1 hgot.stack hgot.applied ?_ hgot.inv ?_
            · have := hgot.left
              simpa [received] using this
            · have := hgot.ends _ hends
              simpa [received] using this
          | ok tok' =>
            have hl := hgot.left
            simp only [received, weights_cons, weights_nil] at hl
            have he := hgot.ends _ hends
            have he : Ends (μ pc1.src) (((T ++ [tok]) ++ [tok']) ++ pc1.tokens) := by simpa [received] using he
            have hstep : ∀ r : PC σ × List (Option Token) × List Rule,
                Settled env.g m μ P s0 pc1 tok' (T ++ [tok]) r.1 r.2.1 r.2.2 → Settled env.g m μ P s0 pc tok T r.1 r.2.1 r.2.2 := by
              intro r h
              have h1 := h.left
              simp only [weights_append, weights_cons, weights_nil] at h1
              obtain ⟨more, h2⟩ := h.toks
              exact ⟨h.stack.trans hgot.stack, h.applied.trans hgot.applied, by omega, h.ends, h.hops, h.fit,
                ⟨tok' :: more, by rw [h2]; simp⟩, h.inv⟩
            dsimp only
            by_cases hr : Real tok
            · obtain ⟨C', hC'⟩ := cost_bound w skip rc'.store
              have hw := weight_real hr
              refine (iha (a - 1) (by omega) C' pc1 tok' (T ++ [tok]) rc' hgot.inv (by omega) he hok.store hq' ?_).mono hstep
              intro j hj
              obtain ⟨p, br, h1, h2, h3⟩ := hok.next j hj
              exact ⟨p, br, h1, h2, by simpa using h3.1, fun _ => hC' br (List.mem_of_getElem? h2)⟩
            · have hC : 0 < C := by
                obtain ⟨p, br, -, -, h3⟩ := hok.next 0 (by omega)
                have := h3.2 hr
                omega
              refine (ihC (C - 1) (by omega) pc1 tok' (T ++ [tok]) rc' hgot.inv (by omega) he hok.store hq' ?_).mono hstep
              intro j hj
              obtain ⟨p, br, h1, h2, h3⟩ := hok.next j hj
              exact ⟨p, br, h1, h2, by simpa using h3.1, fun _ => by have := h3.2 hr; omega⟩

theorem resolve_halts (hs : Feeds pull μ P) (hm : Means env.g.tables m) (hd : Descends env.g m w skip) {pc : PC σ}
    {tok : Option Token} {node : NodeRec} {rest : List NodeRec} (hst : pc.stack = node :: rest) (hp : P pc.src)
    (hends : Ends (μ pc.src) (tok :: pc.tokens)) :
    Halts (fun k n => resolveConflict { env with pull := pull k } n pc tok) (fun r => Settled env.g m μ P node.state pc tok [] r.1 r.2.1 r.2.2) := by
  unfold resolveConflict
  rw [hst]
  refine .orPanic fun top ht => ?_
  cases ht
  refine conflict_halts hs hm hd (left μ pc + weight tok) (cost w skip [node.state]) pc tok [] _ hp (le_refl _) hends ?_ rfl ?_
  · intro p br hp
    obtain ⟨h1, h2⟩ := List.getElem?_eq_some_iff.mp hp
    have : p = 0 := by simpa using h1
    subst this
    have h2 : br = ⟨[node.toFrame], []⟩ := h2.symm
    subst h2
    exact ⟨.nil, .inl fun r hr => by cases hr⟩
  · intro j hj
    have : j = 0 := by simpa using hj
    subst this
    exact ⟨0, _, rfl, rfl, Nat.zero_le _, fun _ => le_refl _⟩

end Verif.Proof
