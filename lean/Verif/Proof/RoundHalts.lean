/-
One round of lookahead stops.
-/
import Mathlib.Data.Multiset.DershowitzManna
import Verif.Proof.Halts
import Verif.Proof.Idle

namespace Verif.Proof

open Verif.Model Verif.Spec Verif.Props
open Verif.Model.Tree (bindRun)

variable {σ : Type}

/-- There are only absent tokens before a real one. -/
def HasReal (k : Nat) (T : List (Option Token)) : Prop :=
  ∃ t rest, T = List.replicate k none ++ some t :: rest ∧ t.type ≠ -3

/-- Rules are idle at least until the first real token. -/
def Fit (rules : List Rule) (T : List (Option Token)) : Prop :=
  (∀ r ∈ rules, Idle r) ∨ ∃ k, HasReal k T ∧ ∀ r ∈ rules.take k, Idle r

theorem HasReal.length {k : Nat} {T : List (Option Token)} (h : HasReal k T) : k < T.length := by
  obtain ⟨t, rest, rfl, -⟩ := h
  simp

theorem HasReal.append {k : Nat} {T : List (Option Token)} (h : HasReal k T) (l : List (Option Token)) : HasReal k (T ++ l) := by
  obtain ⟨t, rest, rfl, h⟩ := h
  exact ⟨t, rest ++ l, by simp, h⟩

theorem Fit.append {rules : List Rule} {T : List (Option Token)} (h : Fit rules T) (l : List (Option Token)) : Fit rules (T ++ l) := by
  rcases h with h | ⟨k, h1, h2⟩
  · exact .inl h
  · exact .inr ⟨k, h1.append l, h2⟩

theorem Fit.snoc {rules : List Rule} {r : Rule} {T : List (Option Token)} (h : Fit rules T) (hl : T.length ≤ rules.length + 1)
    (hr : ¬ Idle r → ∃ k, HasReal k T) : Fit (rules ++ [r]) T := by
  have key : ∀ k, HasReal k T → (∀ x ∈ rules.take k, Idle x) → Fit (rules ++ [r]) T := by
    intro k hk hi
    refine .inr ⟨k, hk, ?_⟩
    have := hk.length
    rw [List.take_append_of_le_length (by omega)]
    exact hi
  rcases h with h | ⟨k, h1, h2⟩
  · by_cases hi : Idle r
    · refine .inl fun x hx => ?_
      rw [List.mem_append, List.mem_singleton] at hx
      rcases hx with hx | rfl
      · exact h x hx
      · exact hi
    · obtain ⟨k, hk⟩ := hr hi
      exact key k hk fun x hx => h x (List.mem_of_mem_take hx)
  · exact key k h1 h2

theorem idle_of_not_consumes {r : Rule} {tok : Option Token} (h : consumes r tok = false) : Idle r := by
  unfold Idle
  simp only [consumes, sameNode, anyToken] at h
  have h := of_decide_eq_false h
  by_contra hc
  exact h (.inl ⟨by omega, by omega⟩)

section

variable (g : Grammar) (m : Nat → Int → List Rule) (w : Int → Nat) (skip : Int → Bool) (s0 : Int)

/-- What holds for every branch: its rules lead from the initial state to its stack. -/
def BranchOk (T : List (Option Token)) (br : Branch) : Prop := Hops g m [s0] br.rules (statesOf br.stack) ∧ Fit br.rules T

variable (n0 : Nat) (tok : Option Token) (C : Nat)

/-- A branch that has not used the token yet. -/
def Before (br : Branch) : Prop := n0 ≤ br.rules.length ∧ (¬ Real tok → cost w skip (statesOf br.stack) ≤ C)

/-- A branch that made a step. -/
def PassedBy (br : Branch) : Prop := n0 + 1 ≤ br.rules.length ∧ (¬ Real tok → cost w skip (statesOf br.stack) < C)

variable (T : List (Option Token))

/-- Invariant of a round; branches before `i` are done, `n` is the number of branches. -/
structure RoundOk (i n : Nat) (rc : RC) : Prop where
  store : ∀ (p : Nat) br, rc.store[p]? = some br → BranchOk g m s0 T br
  next : ∀ j < rc.len, ∃ p br, rc.cur[j]? = some p ∧ rc.store[p]? = some br ∧ PassedBy w skip n0 tok C br
  old : ∀ j, i ≤ j → j < n → ∃ p br, (rc.moved.getD rc.cur)[j]? = some p ∧ rc.store[p]? = some br ∧ Before w skip n0 tok C br
  nodup : rc.q.Nodup
  queue : ∀ p ∈ rc.q, ∃ br, rc.store[p]? = some br ∧ Before w skip n0 tok C br

end

variable {m : Nat → Int → List Rule} {w : Int → Nat} {skip : Int → Bool} {s0 : Int} {n0 C : Nat} {tok : Option Token}
  {T : List (Option Token)} {env : PEnv σ}

theorem PassedBy.before {br : Branch} (h : PassedBy w skip n0 tok C br) : Before w skip n0 tok C br :=
  ⟨by have := h.1; omega, fun hr => le_of_lt (h.2 hr)⟩

theorem branch_step (hm : Means env.g.tables m) (hd : Descends env.g m w skip) (hT : T.length ≤ n0 + 1)
    (hreal : Real tok → ∃ k, HasReal k T) {br : Branch} {top : Frame} {rest : List Frame} {rules : List Rule} {r : Rule}
    {x : List Frame × Bool} (hs : br.stack = top :: rest) (hf : findRules env.g env.upper tok top.state = some rules)
    (hr : r ∈ rules) (hb : BranchOk env.g m s0 T br) (hq : Before w skip n0 tok C br)
    (h : applyQuiet env.g tok r br.stack = some x) :
    BranchOk env.g m s0 T ⟨x.1, br.rules ++ [r]⟩ ∧ PassedBy w skip n0 tok C ⟨x.1, br.rules ++ [r]⟩ ∧
      (x.2 = false → cost w skip (statesOf x.1) < cost w skip (statesOf br.stack)) := by
  rw [hs] at h
  obtain ⟨x1, x2⟩ := x
  obtain ⟨hop, hc⟩ := applyQuiet_hop hm hf hr h
  rw [← hs] at hop
  refine ⟨⟨hb.1.snoc hop, ?_⟩, ⟨?_, ?_⟩, ?_⟩
  · refine hb.2.snoc (by have := hq.1; omega) fun hi => hreal ?_
    by_contra hnr
    exact hi ((found_idle hm hf hr).2 hnr)
  · have := hq.1
    simp only [List.length_append, List.length_singleton]
    omega
  · intro hnr
    have h1 := hop_cost hd ((found_idle hm hf hr).2 hnr) hop
    have h2 := hq.2 hnr
    dsimp only
    omega
  · intro hx
    dsimp only at hx
    rw [hc] at hx
    exact hop_cost hd (idle_of_not_consumes hx) hop

/-- The invariant does not depend on other fields. -/
theorem RoundOk.congr {g : Grammar} {i n : Nat} {rc rc' : RC} (h : RoundOk g m w skip s0 n0 tok C T i n rc) (h1 : rc'.store = rc.store)
    (h2 : rc'.cur = rc.cur) (h3 : rc'.len = rc.len) (h4 : rc'.moved = rc.moved) (h5 : rc'.q = rc.q) :
    RoundOk g m w skip s0 n0 tok C T i n rc' := by
  refine ⟨?_, ?_, ?_, ?_, ?_⟩
  · rw [h1]; exact h.store
  · rw [h1, h2, h3]; exact h.next
  · rw [h1, h2, h4]; exact h.old
  · rw [h5]; exact h.nodup
  · rw [h1, h5]; exact h.queue

theorem RoundOk.append {g : Grammar} {i n b : Nat} {rc : RC} {br : Branch} {grow : Nat → Nat}
    (h : RoundOk g m w skip s0 n0 tok C T i n rc)
    (hb : rc.store[b]? = some br) (hp : PassedBy w skip n0 tok C br) : RoundOk g m w skip s0 n0 tok C T i n (rc.append grow b) := by
  have hlen : rc.len ≤ rc.cur.length := by
    by_contra hc
    obtain ⟨p, br, h1, -⟩ := h.next rc.cur.length (by omega)
    simp at h1
  unfold RC.append
  split
  · rename_i hl
    refine ⟨h.store, ?_, ?_, h.nodup, h.queue⟩
    · intro j hj
      dsimp only at hj ⊢
      by_cases hjl : j = rc.len
      · subst hjl
        exact ⟨b, br, List.getElem?_set_self hl, hb, hp⟩
      · rw [List.getElem?_set_ne (by omega)]
        exact h.next j (by omega)
    · intro j hj hn
      obtain ⟨p, br', h1, h2, h3⟩ := h.old j hj hn
      dsimp only
      cases hmv : rc.moved with
      | some mv => rw [hmv] at h1; exact ⟨p, br', h1, h2, h3⟩
      | none =>
        rw [hmv] at h1
        rw [Option.getD_none] at h1 ⊢
        by_cases hjl : j = rc.len
        · subst hjl
          exact ⟨b, br, List.getElem?_set_self hl, hb, hp.before⟩
        · rw [List.getElem?_set_ne (by omega)]
          exact ⟨p, br', h1, h2, h3⟩
  · rename_i hl
    refine ⟨h.store, ?_, h.old, h.nodup, h.queue⟩
    intro j hj
    dsimp only at hj ⊢
    by_cases hjl : j = rc.len
    · refine ⟨b, br, ?_, hb, hp⟩
      rw [List.getElem?_append_right (by rw [List.length_take]; omega)]
      have : j - (rc.cur.take rc.len).length = 0 := by rw [List.length_take]; omega
      rw [this]; rfl
    · obtain ⟨p, br', h1, h2⟩ := h.next j (by omega)
      refine ⟨p, br', ?_, h2⟩
      rw [List.getElem?_append_left (by rw [List.length_take]; omega), List.getElem?_take_of_lt (by omega)]
      exact h1

theorem RoundOk.set {g : Grammar} {i n b : Nat} {rc : RC} {br : Branch} (h : RoundOk g m w skip s0 n0 tok C T i n rc)
    (hb : b < rc.store.length) (ho : BranchOk g m s0 T br) (hp : PassedBy w skip n0 tok C br) :
    RoundOk g m w skip s0 n0 tok C T i n { rc with store := rc.store.set b br } := by
  have key : ∀ (p : Nat) br' (P : Branch → Prop), rc.store[p]? = some br' → P br' → P br →
      ∃ br'', (rc.store.set b br)[p]? = some br'' ∧ P br'' := by
    intro p br' P h1 h2 h3
    by_cases hpb : b = p
    · subst hpb
      exact ⟨br, List.getElem?_set_self hb, h3⟩
    · exact ⟨br', by rw [List.getElem?_set_ne hpb]; exact h1, h2⟩
  refine ⟨?_, ?_, ?_, h.nodup, ?_⟩
  · intro p br' h1
    dsimp only at h1
    by_cases hpb : b = p
    · subst hpb
      rw [List.getElem?_set_self hb] at h1
      cases h1; exact ho
    · rw [List.getElem?_set_ne hpb] at h1
      exact h.store p br' h1
  · intro j hj
    obtain ⟨p, br', h1, h2, h3⟩ := h.next j hj
    obtain ⟨br'', h4⟩ := key p br' _ h2 h3 hp
    exact ⟨p, br'', h1, h4⟩
  · intro j hj hn
    obtain ⟨p, br', h1, h2, h3⟩ := h.old j hj hn
    obtain ⟨br'', h4⟩ := key p br' _ h2 h3 hp.before
    exact ⟨p, br'', h1, h4⟩
  · intro p hq
    obtain ⟨br', h1, h2⟩ := h.queue p hq
    exact key p br' _ h1 h2 hp.before

theorem append_store (grow : Nat → Nat) (rc : RC) (b : Nat) : (rc.append grow b).store = rc.store ∧ (rc.append grow b).q = rc.q := by
  unfold RC.append; split <;> exact ⟨rfl, rfl⟩

theorem apply_round (hm : Means env.g.tables m) (hd : Descends env.g m w skip) (hT : T.length ≤ n0 + 1)
    (hreal : Real tok → ∃ k, HasReal k T) {i n b : Nat} {rc rc' : RC} {br : Branch} {top : Frame} {rest : List Frame}
    {rules : List Rule} {r : Rule} (hs : br.stack = top :: rest)
    (hf : findRules env.g env.upper tok top.state = some rules) (hr : r ∈ rules)
    (hok : RoundOk env.g m w skip s0 n0 tok C T i n rc) (hbq : b ∉ rc.q) (hb : rc.store[b]? = some br)
    (hq : Before w skip n0 tok C br) (h : rc.apply env tok b r = some rc') :
    RoundOk env.g m w skip s0 n0 tok C T i n rc' ∧ (∀ p ≠ b, rc'.store[p]? = rc.store[p]?) ∧
      (rc'.q = rc.q ∨ rc'.q = rc.q ++ [b] ∧ ∃ br', rc'.store[b]? = some br' ∧
        cost w skip (statesOf br'.stack) < cost w skip (statesOf br.stack)) := by
  rw [RC.apply, hb, Option.bind_some, Option.map_eq_some_iff] at h
  obtain ⟨x, hx, h⟩ := h
  obtain ⟨h1, h2, h3⟩ := branch_step (s0 := s0) hm hd hT hreal hs hf hr (hok.store b br hb) hq hx
  have hbl : b < rc.store.length := (List.getElem?_eq_some_iff.mp hb).1
  have hset := hok.set hbl h1 h2
  have hget : (rc.store.set b ⟨x.1, br.rules ++ [r]⟩)[b]? = some ⟨x.1, br.rules ++ [r]⟩ := List.getElem?_set_self hbl
  have hne : ∀ p ≠ b, (rc.store.set b ⟨x.1, br.rules ++ [r]⟩)[p]? = rc.store[p]? := fun p hp =>
    List.getElem?_set_ne (Ne.symm hp)
  dsimp only at h
  split at h
  · cases h
    refine ⟨hset.append hget h2, ?_, ?_⟩
    · rw [(append_store _ _ _).1]; exact hne
    · rw [(append_store _ _ _).2]; exact .inl rfl
  · rename_i hx2
    split at h
    · cases h
      exact ⟨hset.congr rfl rfl rfl rfl rfl, hne, .inl rfl⟩
    · cases h
      refine ⟨⟨hset.store, hset.next, hset.old, ?_, ?_⟩, hne, .inr ⟨rfl, _, hget, h3 (by simpa using hx2)⟩⟩
      · exact List.nodup_append.mpr ⟨hok.nodup, by simp, by
          intro a ha c hc hac
          rw [List.mem_singleton] at hc
          subst hac; subst hc
          exact hbq ha⟩
      · intro p hp
        dsimp only at hp
        rw [List.mem_append, List.mem_singleton] at hp
        rcases hp with hp | rfl
        · exact hset.queue p hp
        · exact ⟨_, hget, h2.before⟩

theorem applyAll_round (hm : Means env.g.tables m) (hd : Descends env.g m w skip) (hT : T.length ≤ n0 + 1)
    (hreal : Real tok → ∃ k, HasReal k T) {i n : Nat} {br : Branch} {top : Frame} {rest : List Frame}
    {rules : List Rule} (hs : br.stack = top :: rest)
    (hf : findRules env.g env.upper tok top.state = some rules) (hq : Before w skip n0 tok C br) (l : List (Nat × Rule))
    {rc rc' : RC} (hr : ∀ x ∈ l, x.2 ∈ rules) (hst : ∀ x ∈ l, rc.store[x.1]? = some br) (hnd : (l.map (·.1)).Nodup)
    (hdis : ∀ x ∈ l, x.1 ∉ rc.q)
    (hok : RoundOk env.g m w skip s0 n0 tok C T i n rc) (h : rc.applyAll env tok l = some rc') :
    RoundOk env.g m w skip s0 n0 tok C T i n rc' ∧ (∀ p ∉ l.map (·.1), rc'.store[p]? = rc.store[p]?) ∧
      ∃ extra, rc'.q = rc.q ++ extra ∧ ∀ p ∈ extra, p ∈ l.map (·.1) ∧ ∃ br', rc'.store[p]? = some br' ∧
        cost w skip (statesOf br'.stack) < cost w skip (statesOf br.stack) := by
  induction l generalizing rc with
  | nil =>
    cases h
    exact ⟨hok, fun _ _ => rfl, [], by simp, fun p hp => by cases hp⟩
  | cons x l ih =>
    obtain ⟨b, r⟩ := x
    rw [RC.applyAll, Option.bind_eq_some_iff] at h
    obtain ⟨rc1, h1, h⟩ := h
    have hm0 : (b, r) ∈ (b, r) :: l := List.mem_cons_self
    obtain ⟨a1, a2, a3⟩ := apply_round (s0 := s0) (T := T) (i := i) (n := n) hm hd hT hreal hs hf (hr _ hm0) hok (hdis _ hm0)
      (hst _ hm0) hq h1
    rw [List.map_cons, List.nodup_cons] at hnd
    have hne : ∀ x ∈ l, x.1 ≠ b := fun x hx he => hnd.1 (he ▸ List.mem_map_of_mem (f := (·.1)) hx)
    obtain ⟨b1, b2, extra, b3, b4⟩ := ih (fun x hx => hr x (List.mem_cons_of_mem _ hx))
      (fun x hx => by rw [a2 _ (hne x hx)]; exact hst x (List.mem_cons_of_mem _ hx)) hnd.2
      (fun x hx => by
        have h5 := hdis x (List.mem_cons_of_mem _ hx)
        have h6 := hne x hx
        rcases a3 with a3 | ⟨a3, -⟩
        · rw [a3]; exact h5
        · rw [a3, List.mem_append, List.mem_singleton]
          exact fun hc => hc.elim h5 h6) a1 h
    refine ⟨b1, ?_, ?_⟩
    · intro p hp
      rw [List.map_cons, List.mem_cons, not_or] at hp
      rw [b2 p hp.2, a2 p hp.1]
    · rcases a3 with a3 | ⟨a3, br', a4, a5⟩
      · refine ⟨extra, by rw [b3, a3], fun p hp => ?_⟩
        obtain ⟨c1, c2⟩ := b4 p hp
        exact ⟨List.mem_cons_of_mem _ c1, c2⟩
      · refine ⟨b :: extra, by rw [b3, a3]; simp, fun p hp => ?_⟩
        rcases List.mem_cons.mp hp with rfl | hp
        · refine ⟨by simp, br', ?_, a5⟩
          rw [b2 _ hnd.1]; exact a4
        · obtain ⟨c1, c2⟩ := b4 p hp
          exact ⟨List.mem_cons_of_mem _ c1, c2⟩

/-- Weight of the branch. -/
def costAt (w : Int → Nat) (skip : Int → Bool) (store : List Branch) (p : Nat) : Nat :=
  match store[p]? with
  | some br => cost w skip (statesOf br.stack)
  | none => 0

/-- Weights of queued branches. -/
def queueCost (w : Int → Nat) (skip : Int → Bool) (rc : RC) : Multiset Nat := (rc.q.map (costAt w skip rc.store) : List Nat)

theorem queueCost_lt {rc rc' : RC} {b : Nat} {q extra : List Nat} (hq : rc.q = b :: q) (hq' : rc'.q = q ++ extra)
    (h1 : ∀ p ∈ q, rc'.store[p]? = rc.store[p]?) (h2 : ∀ p ∈ extra, costAt w skip rc'.store p < costAt w skip rc.store b) :
    (queueCost w skip rc').IsDershowitzMannaLT (queueCost w skip rc) := by
  refine ⟨(q.map (costAt w skip rc.store) : List Nat), (extra.map (costAt w skip rc'.store) : List Nat),
    {costAt w skip rc.store b}, by simp, ?_, ?_, ?_⟩
  · unfold queueCost
    rw [hq', List.map_append, ← Multiset.coe_add]
    congr 2
    refine List.map_congr_left fun p hp => ?_
    unfold costAt
    rw [h1 p hp]
  · unfold queueCost
    rw [hq, List.map_cons, ← Multiset.cons_coe, ← Multiset.singleton_add, add_comm]
  · intro y hy
    refine ⟨_, Multiset.mem_singleton_self _, ?_⟩
    obtain ⟨p, hp, rfl⟩ := List.mem_map.mp (Multiset.mem_coe.mp hy)
    exact h2 p hp

theorem drain_round (hm : Means env.g.tables m) (hd : Descends env.g m w skip) (hT : T.length ≤ n0 + 1)
    (hreal : Real tok → ∃ k, HasReal k T) {i n : Nat} (rc : RC) (hok : RoundOk env.g m w skip s0 n0 tok C T i n rc) :
    Halts (fun _ f => RC.drain env tok f rc) (fun rc' => RoundOk env.g m w skip s0 n0 tok C T i n rc' ∧ rc'.q = []) := by
  have hwf := Multiset.wellFounded_isDershowitzMannaLT (α := Nat)
  generalize hM : queueCost w skip rc = M
  induction M using hwf.induction generalizing rc with
  | _ M ih =>
    subst hM
    cases hq : rc.q with
    | nil => exact .step (g := fun _ _ => .done rc) (fun _ n => by rw [RC.drain, hq]) (.done ⟨hok, hq⟩)
    | cons b q =>
      obtain ⟨br, hb, hbe⟩ := hok.queue b (by rw [hq]; simp)
      have hnd := hok.nodup
      rw [hq, List.nodup_cons] at hnd
      have hok1 : RoundOk env.g m w skip s0 n0 tok C T i n { rc with q := q } :=
        ⟨hok.store, hok.next, hok.old, hnd.2, fun p hp => hok.queue p (by rw [hq]; exact List.mem_cons_of_mem _ hp)⟩
      have hcb : costAt w skip rc.store b = cost w skip (statesOf br.stack) := by rw [costAt, hb]
      cases hst : br.stack with
      | nil =>
        refine .step (g := fun _ f => RC.drain env tok f { rc with q := q, lastSuccess := some b })
          (fun _ n => by rw [RC.drain, hq]; simp [orPanic, hb, hst]) ?_
        refine ih _ ?_ _ ?_ rfl
        · exact queueCost_lt (b := b) (q := q) (extra := []) hq (List.append_nil q).symm (fun _ _ => rfl) (by simp)
        exact hok1.congr rfl rfl rfl rfl rfl
      | cons top rest =>
        cases hf : findRules env.g env.upper tok top.state with
        | none => exact .step (g := fun _ _ => .panic) (fun _ n => by rw [RC.drain, hq]; simp [orPanic, hb, hst, hf]) .panic
        | some rules =>
          rcases rules with _ | ⟨r, _ | ⟨r', rs⟩⟩
          · refine .step (g := fun _ f => RC.drain env tok f { rc with q := q, lastError := some b })
              (fun _ n => by rw [RC.drain, hq]; simp [orPanic, hb, hst, hf]) ?_
            refine ih _ ?_ _ ?_ rfl
            · exact queueCost_lt (b := b) (q := q) (extra := []) hq (List.append_nil q).symm (fun _ _ => rfl) (by simp)
            exact hok1.congr rfl rfl rfl rfl rfl
          · refine .step (g := fun _ f => orPanic (RC.apply env tok { rc with q := q } b r) (RC.drain env tok f))
              (fun _ n => by rw [RC.drain, hq]; simp [hb, hst, hf, orPanic]) ?_
            refine .orPanic fun rc' hrc' => ?_
            obtain ⟨a1, a2, a3⟩ := apply_round (s0 := s0) (T := T) (i := i) (n := n) hm hd hT hreal hst hf
              (List.mem_singleton.mpr rfl) hok1 hnd.1 hb hbe hrc'
            refine ih _ ?_ _ a1 rfl
            have hsame : ∀ p ∈ q, rc'.store[p]? = rc.store[p]? := fun p hp => a2 p (fun he => hnd.1 (he ▸ hp))
            rcases a3 with a3 | ⟨a3, br', a4, a5⟩
            · exact queueCost_lt (b := b) (q := q) (extra := []) hq (by simpa using a3) hsame (by simp)
            · refine queueCost_lt (b := b) (q := q) (extra := [b]) hq a3 hsame ?_
              intro p hp
              rw [List.mem_singleton] at hp
              subst hp
              rw [hcb, costAt, a4]
              exact a5
          · generalize hrs : r :: r' :: rs = rules at hf
            have hl : rules.length ≠ 0 := by rw [← hrs]; simp
            refine .step (g := fun _ f => orPanic (RC.applyAll env tok
              ((RC.split { rc with q := q } b br rules.length).2.zip rules)
              (RC.split { rc with q := q } b br rules.length).1) (RC.drain env tok f))
              (fun _ n => by rw [RC.drain, hq]; simp [hb, hst, hf, ← hrs, orPanic, RC.split]) ?_
            refine .orPanic fun rc' hrc' => ?_
            have hbl : b < rc.store.length := (List.getElem?_eq_some_iff.mp hb).1
            have hold : ∀ (p : Nat) br', rc.store[p]? = some br' → (rc.store ++ List.replicate (rules.length - 1) br)[p]? = some br' := by
              intro p br' hp
              rw [List.getElem?_append_left (List.getElem?_eq_some_iff.mp hp).1]
              exact hp
            have hlen : (RC.split { rc with q := q } b br rules.length).2.length = rules.length := by
              simp [RC.split]; omega
            have hmap : ((RC.split { rc with q := q } b br rules.length).2.zip rules).map (·.1) =
                (RC.split { rc with q := q } b br rules.length).2 := by
              rw [← List.unzip_fst, List.unzip_zip_left (le_of_eq hlen)]
            have hmem : ∀ p ∈ (RC.split { rc with q := q } b br rules.length).2, p = b ∨ rc.store.length ≤ p ∧
                p < rc.store.length + (rules.length - 1) := by
              intro p hp
              simp only [RC.split, List.mem_cons, List.mem_map, List.mem_range] at hp
              rcases hp with rfl | ⟨j, hj, rfl⟩
              · exact .inl rfl
              · right; omega
            have hok2 : RoundOk env.g m w skip s0 n0 tok C T i n (RC.split { rc with q := q } b br rules.length).1 := by
              refine ⟨?_, ?_, ?_, hnd.2, ?_⟩
              · intro p br' hp
                simp only [RC.split] at hp
                rw [List.getElem?_append] at hp
                split at hp
                · exact hok.store p br' hp
                · have : br' = br := List.eq_of_mem_replicate (List.mem_of_getElem? hp)
                  rw [this]
                  exact hok.store b br hb
              · intro j hj
                obtain ⟨p, br', e1, e2, e3⟩ := hok1.next j hj
                exact ⟨p, br', e1, hold p br' e2, e3⟩
              · intro j hj hn
                obtain ⟨p, br', e1, e2, e3⟩ := hok1.old j hj hn
                exact ⟨p, br', e1, hold p br' e2, e3⟩
              · intro p hp
                obtain ⟨br', e1, e2⟩ := hok1.queue p hp
                exact ⟨br', hold p br' e1, e2⟩
            have hql : ∀ p ∈ q, p < rc.store.length := by
              intro p hp
              obtain ⟨br', e1, -⟩ := hok1.queue p hp
              exact (List.getElem?_eq_some_iff.mp e1).1
            have hfst : ∀ x ∈ (RC.split { rc with q := q } b br rules.length).2.zip rules,
                x.1 ∈ (RC.split { rc with q := q } b br rules.length).2 := fun x hx => (List.of_mem_zip hx).1
            have hdis : ∀ p ∈ (RC.split { rc with q := q } b br rules.length).2, p ∉ q := by
              intro p hp hpq
              rcases hmem p hp with rfl | hp
              · exact hnd.1 hpq
              · have := hql p hpq; omega
            obtain ⟨a1, a2, extra, a3, a4⟩ := applyAll_round (s0 := s0) (T := T) (i := i) (n := n) hm hd hT hreal hst hf hbe
              ((RC.split { rc with q := q } b br rules.length).2.zip rules) (fun x hx => (List.of_mem_zip hx).2)
              (fun x hx => by
                rcases hmem _ (hfst x hx) with he | ⟨h5, h6⟩
                · rw [he]; exact hold b br hb
                · simp only [RC.split]
                  rw [List.getElem?_append_right h5, List.getElem?_replicate, if_pos (by omega)])
              (by
                rw [hmap]
                simp only [RC.split, List.nodup_cons]
                refine ⟨?_, ?_⟩
                · intro hc
                  obtain ⟨j, -, hj⟩ := List.mem_map.mp hc
                  omega
                · exact List.Nodup.map (fun x y hxy => by simpa using hxy) List.nodup_range)
              (fun x hx => hdis _ (hfst x hx)) hok2 hrc'
            refine ih _ ?_ _ a1 rfl
            rw [hmap] at a2
            refine queueCost_lt (b := b) (q := q) (extra := extra) hq a3 ?_ ?_
            · intro p hp
              rw [a2 p (fun hc => hdis p hc hp)]
              simp only [RC.split]
              rw [List.getElem?_append_left (hql p hp)]
            · intro p hp
              obtain ⟨-, br', c1, c2⟩ := a4 p hp
              rw [hcb, costAt, c1]
              exact c2

theorem overBranches_round (hm : Means env.g.tables m) (hd : Descends env.g m w skip) (hT : T.length ≤ n0 + 1)
    (hreal : Real tok → ∃ k, HasReal k T) (count : Nat) {i n : Nat} (rc : RC) (hn : i + count = n)
    (hok : RoundOk env.g m w skip s0 n0 tok C T i n rc) (hq : rc.q = []) :
    Halts (fun _ f => RC.overBranches env tok f count i rc)
      (fun rc' => RoundOk env.g m w skip s0 n0 tok C T n n rc' ∧ rc'.q = []) := by
  induction count generalizing i rc with
  | zero =>
    have : i = n := by omega
    subst this
    exact .done ⟨hok, hq⟩
  | succ count ih =>
    obtain ⟨p, br, h1, h2, h3⟩ := hok.old i (le_refl _) (by omega)
    refine .congr (g := fun _ f => orPanic ((rc.moved.getD rc.cur)[i]?) fun b =>
      bindRun (RC.drain env tok f { rc with q := rc.q ++ [b] }) fun rc => RC.overBranches env tok f count (i + 1) rc)
      (fun _ f => by rw [RC.overBranches]) ?_
    refine .orPanic fun b hb => ?_
    rw [h1] at hb; cases hb
    refine .bind (drain_round (s0 := s0) (T := T) (i := i) (n := n) (C := C) hm hd hT hreal _ ?_) (fun rc' h => ?_)
    · refine ⟨hok.store, hok.next, hok.old, ?_, ?_⟩
      · rw [hq]; simp
      · intro p' hp'
        dsimp only at hp'
        rw [hq, List.nil_append, List.mem_singleton] at hp'
        subst hp'
        exact ⟨br, h2, h3⟩
    · obtain ⟨e1, e2⟩ := h
      exact ih rc' (by omega) ⟨e1.store, e1.next, fun j hj hn => e1.old j (by omega) hn, e1.nodup, e1.queue⟩ e2

section

variable (pull : σ → TokenTypeSet → Run (σ × Except PErr (Option Token)))

theorem applyAll_pull (l : List (Nat × Rule)) (rc : RC) :
    RC.applyAll { env with pull := pull } tok l rc = RC.applyAll env tok l rc := by
  induction l generalizing rc with
  | nil => rfl
  | cons x l ih =>
    obtain ⟨b, r⟩ := x
    rw [RC.applyAll, RC.applyAll, show RC.apply { env with pull := pull } tok rc b r = RC.apply env tok rc b r from rfl]
    cases RC.apply env tok rc b r with
    | none => rfl
    | some rc' => exact ih rc'

theorem drain_pull (fuel : Nat) (rc : RC) : RC.drain { env with pull := pull } tok fuel rc = RC.drain env tok fuel rc := by
  induction fuel generalizing rc with
  | zero => rfl
  | succ fuel ih =>
    have ih : RC.drain { env with pull := pull } tok fuel = RC.drain env tok fuel := funext ih
    rw [RC.drain, RC.drain]
    simp only [applyAll_pull, ih, show ∀ rc b r, RC.apply { env with pull := pull } tok rc b r = RC.apply env tok rc b r from
      fun _ _ _ => rfl]

theorem overBranches_pull (fuel count i : Nat) (rc : RC) :
    RC.overBranches { env with pull := pull } tok fuel count i rc = RC.overBranches env tok fuel count i rc := by
  induction count generalizing i rc with
  | zero => rfl
  | succ count ih =>
    rw [RC.overBranches, RC.overBranches]
    simp only [drain_pull, ih]

theorem round_pull (fuel : Nat) (rc : RC) : RC.round { env with pull := pull } tok fuel rc = RC.round env tok fuel rc :=
  overBranches_pull pull fuel _ _ _

end

end Verif.Proof
