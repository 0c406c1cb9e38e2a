/-
Lookaheads in which lists of branches have known shapes.
-/
import Verif.Proof.Conflict

namespace Verif.Proof

open Verif.Model Verif.Spec Verif.Props
open Verif.Model.Tree (bindRun)

/-- States after a rule. -/
def moveStates (firsts : List Nat) (r : Rule) (s : Int) (rest : List Int) : List Int :=
  ((if r.node = -1 then [after r s] else [((firsts[r.node.toNat]?).getD 0 : Int), after r s]) ++ rest).dropWhile (· = -1)

/-- Tracing of stacks of states: stacks after using the token. -/
def traceStates (R : Int → Option (List Rule)) (firsts : List Nat) (isNil : Bool) : Nat → List (List Int) → List (List Int) →
    Option (List (List Int))
  | 0, _, _ => none
  | _ + 1, [], acc => some acc
  | n + 1, [] :: q, acc => traceStates R firsts isNil n q acc
  | n + 1, (s :: rest) :: q, acc =>
    (R s).bind fun rules =>
      let xs := rules.map fun r => (moveStates firsts r s rest, decide (r.node = -1 ∧ r.token ≠ -1) || isNil)
      traceStates R firsts isNil n (q ++ ((xs.filter fun x => !x.2 && !x.1.isEmpty).map (·.1))) (acc ++ (xs.filter (·.2)).map (·.1))

section
variable {R : Int → Option (List Rule)} {firsts : List Nat} {isNil : Bool}

theorem traceStates_acc (n : Nat) (q acc : List (List Int)) :
    traceStates R firsts isNil n q acc = (traceStates R firsts isNil n q []).map (acc ++ ·) := by
  induction n generalizing q acc with
  | zero => rfl
  | succ n ih =>
    match q with
    | [] => simp [traceStates]
    | [] :: q => simp only [traceStates]; exact ih q acc
    | (s :: rest) :: q =>
      simp only [traceStates]
      cases R s with
      | none => rfl
      | some rules =>
        simp only [Option.bind_some, List.nil_append]
        rw [ih _ (acc ++ _), ih _ (List.map _ _), Option.map_map]
        congr 1
        funext x
        simp

theorem traceStates_mono {n m : Nat} (hnm : n ≤ m) {q acc out : List (List Int)} (h : traceStates R firsts isNil n q acc = some out) :
    traceStates R firsts isNil m q acc = some out := by
  induction n generalizing m q acc with
  | zero => cases h
  | succ n ih =>
    obtain ⟨m, rfl⟩ : ∃ k, m = k + 1 := ⟨m - 1, by omega⟩
    match q with
    | [] => exact h
    | [] :: q => simp only [traceStates] at h ⊢; exact ih (by omega) h
    | (s :: rest) :: q =>
      simp only [traceStates] at h ⊢
      cases hR : R s with
      | none => rw [hR] at h; cases h
      | some rules =>
        rw [hR] at h
        simp only [Option.bind_some] at h ⊢
        exact ih (by omega) h

theorem traceStates_det {n m : Nat} {q acc out out' : List (List Int)} (h : traceStates R firsts isNil n q acc = some out)
    (h' : traceStates R firsts isNil m q acc = some out') : out = out' := by
  rcases Nat.le_total n m with hnm | hnm
  · rw [traceStates_mono hnm h] at h'; exact Option.some.inj h'
  · rw [traceStates_mono hnm h'] at h; exact (Option.some.inj h).symm

end

variable {g : Grammar} {upper : List Nat → List Nat} {tok : Option Token}

/-- States of a branch. -/
def branchStates (b : Branch) : List Int := statesOf b.stack

theorem useRule_states {b x : Branch} {r : Rule} {c : Bool} {top : Frame} {rest : List Frame} (hb : b.stack = top :: rest)
    (h : useRule g tok b r = some (x, c)) :
    branchStates x = moveStates g.firsts r top.state (statesOf rest) ∧ c = (decide (r.node = -1 ∧ r.token ≠ -1) || tok.isNone) := by
  obtain ⟨h1, -⟩ := useRule_some.mp h
  rw [hb] at h1
  obtain ⟨f, rest', tp, e1, e2, e3, e4⟩ := applyQuiet_states h1
  cases e1
  constructor
  · rw [branchStates, e3, moveStates]
    rcases e2 with ⟨a, rfl⟩ | ⟨i, f1, a, b, rfl⟩
    · rw [if_pos a]
    · rw [if_neg (by omega), a]
      simp [b]
  · rw [e4, consumes]
    simp only [sameNode, anyToken]
    cases tok <;> simp

theorem useRules_states {b : Branch} {top : Frame} {rest : List Frame} (hb : b.stack = top :: rest) (rules : List Rule) {q q' : List Branch}
    {o o' : Traced} (h : useRules g tok b rules q o = some (q', o')) :
    let xs := rules.map fun r => (moveStates g.firsts r top.state (statesOf rest), decide (r.node = -1 ∧ r.token ≠ -1) || tok.isNone)
    q'.map branchStates = q.map branchStates ++ ((xs.filter fun x => !x.2 && !x.1.isEmpty).map (·.1)) ∧
      o'.next.map branchStates = o.next.map branchStates ++ (xs.filter (·.2)).map (·.1) := by
  induction rules generalizing q o with
  | nil => cases h; simp
  | cons r rs ih =>
    rw [useRules, Option.bind_eq_some_iff] at h
    obtain ⟨⟨x, c⟩, hx, h⟩ := h
    obtain ⟨h1, h2⟩ := useRule_states hb hx
    dsimp only at h
    rw [List.map_cons, ← h1, ← h2]
    split at h
    · rename_i hc
      have hc : c = true := hc
      subst hc
      obtain ⟨i1, i2⟩ := ih h
      refine ⟨?_, ?_⟩
      · rw [i1]; simp
      · rw [i2]; simp
    · rename_i hc
      have hc : c = false := by simpa using hc
      subst hc
      have he : (branchStates x).isEmpty = x.stack.isEmpty := by
        rw [branchStates, statesOf]; cases x.stack <;> rfl
      split at h
      · rename_i hs
        obtain ⟨i1, i2⟩ := ih h
        refine ⟨?_, ?_⟩
        · rw [i1]; simp [he, hs]
        · rw [i2]; simp
      · rename_i hs
        have hs : x.stack.isEmpty = false := by simpa using hs
        obtain ⟨i1, i2⟩ := ih h
        refine ⟨?_, ?_⟩
        · rw [i1]; simp [he, hs]
        · rw [i2]; simp

theorem traceQueue_states (fuel : Nat) {q : List Branch} {o o' : Traced} (h : traceQueue g upper tok fuel q o = .done o') :
    traceStates (findRules g upper tok) g.firsts tok.isNone fuel (q.map branchStates) (o.next.map branchStates) =
      some (o'.next.map branchStates) := by
  induction fuel generalizing q o with
  | zero => simp [traceQueue] at h
  | succ fuel ih =>
    cases q with
    | nil => cases h; rfl
    | cons b q =>
      rw [traceQueue] at h
      cases hst : b.stack with
      | nil =>
        rw [hst] at h
        have hb : branchStates b = [] := by rw [branchStates, hst]; rfl
        rw [List.map_cons, hb, traceStates]
        have := ih h
        exact this
      | cons top rest =>
        rw [hst] at h
        dsimp only at h
        rw [orPanic_done] at h
        obtain ⟨rules, hr, h⟩ := h
        have hb : branchStates b = top.state :: statesOf rest := by rw [branchStates, hst]; rfl
        rw [List.map_cons, hb, traceStates, hr]
        simp only [Option.bind_some]
        cases rules with
        | nil =>
          have := ih h
          simpa using this
        | cons r rs =>
          dsimp only at h
          rw [orPanic_done] at h
          obtain ⟨⟨q1, o1⟩, hu, h⟩ := h
          obtain ⟨i1, i2⟩ := useRules_states hst _ hu
          have := ih h
          rw [i1, i2] at this
          exact this

/-- Results of tracing one branch. -/
theorem traceQueue_one {fuel : Nat} {b : Branch} {o o' : Traced} (h : traceQueue g upper tok fuel [b] o = .done o') :
    ∃ N, traceStates (findRules g upper tok) g.firsts tok.isNone fuel [branchStates b] [] = some N ∧
      o'.next.map branchStates = o.next.map branchStates ++ N := by
  have h := traceQueue_states fuel h
  rw [traceStates_acc, Option.map_eq_some_iff] at h
  obtain ⟨N, h1, h2⟩ := h
  exact ⟨N, h1, h2.symm⟩

/-- Results of tracing branches. -/
def TracedTo (g : Grammar) (upper : List Nat → List Nat) (tok : Option Token) (st : List Int) (N : List (List Int)) : Prop :=
  ∃ fuel, traceStates (findRules g upper tok) g.firsts tok.isNone fuel [st] [] = some N

theorem traceEach_states {fuel : Nat} (L : List Branch) {o o' : Traced} (h : traceEach g upper tok fuel L o = .done o') :
    ∃ Ns, List.Forall₂ (TracedTo g upper tok) (L.map branchStates) Ns ∧ o'.next.map branchStates = o.next.map branchStates ++ Ns.flatten := by
  induction L generalizing o with
  | nil => cases h; exact ⟨[], .nil, by simp⟩
  | cons b L ih =>
    rw [traceEach, bindRun_done] at h
    obtain ⟨o1, h1, h⟩ := h
    obtain ⟨N, e1, e2⟩ := traceQueue_one h1
    obtain ⟨Ns, e3, e4⟩ := ih h
    exact ⟨N :: Ns, .cons ⟨_, e1⟩ e3, by rw [e4, e2, List.flatten_cons, List.append_assoc]⟩

/-- Only the last branch can have several variants. -/
theorem fits_of_single {fuel : Nat} (L : List Branch) (n : Nat) {o : Traced}
    (hL : ∀ a b c, L = a ++ b :: c → c ≠ [] → ∀ N, TracedTo g upper tok (branchStates b) N → N.length ≤ 1) (hn : o.next.length ≤ n) :
    Fits g upper tok fuel n L o := by
  induction L generalizing n o with
  | nil => trivial
  | cons b L ih =>
    refine ⟨hn, fun o' h => ?_⟩
    cases L with
    | nil => trivial
    | cons b2 L =>
      refine ih (n + 1) (fun a b' c he hc => hL (b :: a) b' c (by rw [he]; rfl) hc) ?_
      obtain ⟨N, e1, e2⟩ := traceQueue_one h
      have h1 := hL [] b _ rfl (by simp) N ⟨_, e1⟩
      have := congrArg List.length e2
      simp only [List.length_map, List.length_append] at this
      omega

theorem forall₂_append {α β : Type} {R : α → β → Prop} {l : List α} {a b : List β} (h : List.Forall₂ R l (a ++ b)) :
    ∃ x y, List.Forall₂ R x a ∧ List.Forall₂ R y b ∧ l = x ++ y := by
  induction a generalizing l with
  | nil => exact ⟨[], l, .nil, h, rfl⟩
  | cons c a ih =>
    cases h with
    | cons h1 h2 =>
      obtain ⟨x, y, e1, e2, rfl⟩ := ih h2
      exact ⟨_ :: x, y, .cons h1 e1, e2, rfl⟩

/-- A lookahead is safe if lists of branches have known shapes: lists of classes of branches in `S`; only the last branch of a shape can
have several variants. -/
theorem safe_of_shapes {Cls : Type} {In : Cls → List Int → Prop} {S : List Cls → Prop} {P : Option Token → Prop}
    (h0 : ∀ s tok0 rules, P tok0 → findRules g upper tok0 s = some rules → 1 < rules.length → ∀ N, TracedTo g upper tok0 [s] N →
      ∃ sh, S sh ∧ List.Forall₂ In sh N)
    (h1 : ∀ tok, P tok → ∀ a c b, S (a ++ c :: b) → b ≠ [] → ∀ st N, In c st → TracedTo g upper tok st N → N.length ≤ 1)
    (h2 : ∀ tok, P tok → ∀ sh, S sh → ∀ L Ns, List.Forall₂ In sh L → List.Forall₂ (TracedTo g upper tok) L Ns →
      ∃ sh', S sh' ∧ List.Forall₂ In sh' Ns.flatten) : SafeLookaheadOn P g upper := by
  intro f tok0 rules hp0 hf hl ts L hts hr tok dead fuel hp
  have key : ∀ ts0 L, Rounds g upper ⟨[f], []⟩ ts0 L → (∀ t ∈ ts0, P t) → ∀ ts, ts0 = tok0 :: ts →
      ∃ sh, S sh ∧ List.Forall₂ In sh (L.map branchStates) := by
    intro ts0 L hrr
    induction hrr with
    | nil => intro _ ts h; cases h
    | @step ts1 L1 tok1 fuel1 dead1 o hrr htr ih =>
      intro hall ts he
      obtain ⟨Ns, e1, e2⟩ := traceEach_states _ htr
      rw [List.map_nil, List.nil_append] at e2
      cases ts1 with
      | nil =>
        rw [List.nil_append, List.cons.injEq] at he
        obtain ⟨rfl, rfl⟩ := he
        have hL1 : L1 = [⟨[f], []⟩] := by
          generalize hts1 : ([] : List (Option Token)) = ts1 at hrr
          cases hrr with
          | nil => rfl
          | step _ _ => simp at hts1
        subst hL1
        cases e1 with
        | cons e3 e4 =>
          cases e4
          rw [e2, List.flatten_cons, List.flatten_nil, List.append_nil]
          exact h0 _ _ _ hp0 hf hl _ e3
      | cons t ts1 =>
        rw [List.cons_append, List.cons.injEq] at he
        obtain ⟨rfl, rfl⟩ := he
        obtain ⟨sh, e3, e4⟩ := ih (fun t ht => hall t (by simp only [List.mem_append]; exact .inl ht)) _ rfl
        rw [e2]
        exact h2 _ (hall _ (by simp)) sh e3 _ _ e4 e1
  obtain ⟨sh, e1, e2⟩ := key _ L hr (by
    intro t ht
    rcases List.mem_cons.mp ht with rfl | ht
    · exact hp0
    · exact hts t ht) _ rfl
  refine fits_of_single L 0 ?_ (by simp)
  rintro a b c rfl hc N hN
  rw [List.map_append, List.map_cons] at e2
  obtain ⟨sa, sbc, e3, e4, rfl⟩ := forall₂_append e2
  cases e4 with
  | cons e5 e6 =>
    refine h1 tok hp sa _ _ e1 ?_ _ N e5 hN
    rintro rfl
    cases c with
    | nil => exact hc rfl
    | cons _ _ => cases e6

end Verif.Proof
