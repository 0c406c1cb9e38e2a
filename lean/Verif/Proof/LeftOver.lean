/-
Rules chosen by a lookahead use up all its tokens but perhaps the last one (whatever happens to branches).
-/
import Verif.Proof.Conflict

namespace Verif.Proof

open Verif Verif.Model Verif.Spec
open Verif.Model.Tree (bindRun)

variable {σ : Type}

/-- Tokens left after the rules are used one after another. -/
def leftOver : List (Option Token) → List Rule → List (Option Token)
  | [], _ => []
  | t :: ts, [] => t :: ts
  | t :: ts, r :: rs => if consumes r t then leftOver ts rs else leftOver (t :: ts) rs
termination_by ts rs => (rs.length, ts.length)

theorem leftOver_none (rs : List Rule) : leftOver [] rs = [] := by rw [leftOver]

theorem leftOver_start (ts : List (Option Token)) : leftOver ts [] = ts := by
  cases ts <;> rw [leftOver]

theorem leftOver_cons (t : Option Token) (ts : List (Option Token)) (r : Rule) (rs : List Rule) :
    leftOver (t :: ts) (r :: rs) = if consumes r t then leftOver ts rs else leftOver (t :: ts) rs := by rw [leftOver]

/-- One more rule. -/
theorem leftOver_rule (ts : List (Option Token)) (rs : List Rule) (r : Rule) :
    leftOver ts (rs ++ [r]) = leftOver (leftOver ts rs) [r] := by
  induction rs generalizing ts with
  | nil => rw [leftOver_start, List.nil_append]
  | cons r' rs ih =>
    cases ts with
    | nil => simp [leftOver_none]
    | cons t ts =>
      rw [List.cons_append, leftOver_cons, leftOver_cons]
      split
      · exact ih ts
      · exact ih (t :: ts)

theorem leftOver_more {ts : List (Option Token)} {rs : List Rule} (h : leftOver ts rs = []) (rs' : List Rule) : leftOver ts (rs ++ rs') = [] := by
  induction rs' generalizing rs with
  | nil => simpa using h
  | cons r rs' ih =>
    have : rs ++ r :: rs' = rs ++ [r] ++ rs' := by simp
    rw [this]
    apply ih
    rw [leftOver_rule, h, leftOver_none]

theorem leftOver_one (t : Option Token) (rs : List Rule) : leftOver [t] rs = [] ∨ leftOver [t] rs = [t] := by
  induction rs with
  | nil => right; rw [leftOver_start]
  | cons r rs ih =>
    rw [leftOver_cons, leftOver_none]
    split
    · exact .inl rfl
    · exact ih

/-- One more token. -/
theorem leftOver_token {ts : List (Option Token)} {rs : List Rule} (h : leftOver ts rs = []) (t : Option Token) :
    leftOver (ts ++ [t]) rs = [] ∨ leftOver (ts ++ [t]) rs = [t] := by
  induction rs generalizing ts with
  | nil =>
    rw [leftOver_start] at h ⊢
    subst h
    exact .inr rfl
  | cons r rs ih =>
    cases ts with
    | nil => exact leftOver_one t _
    | cons t' ts =>
      rw [leftOver_cons] at h
      rw [List.cons_append, leftOver_cons]
      split at h
      · rename_i hc
        rw [if_pos hc]; exact ih h
      · rename_i hc
        rw [if_neg hc]; exact ih h

theorem leftOver_fewer {ts : List (Option Token)} {rs : List Rule} {t : Option Token} (h : leftOver (ts ++ [t]) rs = []) : leftOver ts rs = [] := by
  induction rs generalizing ts with
  | nil => rw [leftOver_start] at h; simp at h
  | cons r rs ih =>
    cases ts with
    | nil => exact leftOver_none _
    | cons t' ts =>
      rw [List.cons_append, leftOver_cons] at h
      rw [leftOver_cons]
      split at h
      · rename_i hc
        rw [if_pos hc]; exact ih h
      · rename_i hc
        rw [if_neg hc]; exact ih h

/-! ### Branches -/

/-- Properties of rules of branches while a token is handled: before and after it is used. -/
structure Grows (tok : Option Token) (A B : List Rule → Prop) : Prop where
  a : ∀ rs rs', A rs → A (rs ++ rs')
  b : ∀ rs rs', B rs → B (rs ++ rs')
  ba : ∀ rs, B rs → A rs
  step : ∀ rs r, A rs → consumes r tok = true → B (rs ++ [r])

theorem leftOver_grows (ts : List (Option Token)) (tok : Option Token) :
    Grows tok (fun rs => leftOver ts rs = []) (fun rs => leftOver (ts ++ [tok]) rs = []) := by
  refine ⟨fun rs rs' h => leftOver_more h rs', fun rs rs' h => leftOver_more h rs', fun rs h => leftOver_fewer h, fun rs r h hc => ?_⟩
  rw [leftOver_rule]
  rcases leftOver_token h tok with h1 | h1
  · rw [h1, leftOver_none]
  · rw [h1, leftOver_cons, leftOver_none, if_pos hc]

/-- The pointer is valid and rules of the branch have the property. -/
def HasRules (A : List Rule → Prop) (store : List Branch) (p : Nat) : Prop := ∃ br, store[p]? = some br ∧ A br.rules

/-- Rules are only added to branches, and branches are added. -/
def MoreRules (s s' : List Branch) : Prop := ∀ (p : Nat) (br : Branch), s[p]? = some br → ∃ (br' : Branch) (rs : List Rule), s'[p]? = some br' ∧ br'.rules = br.rules ++ rs

theorem HasRules.more {A : List Rule → Prop} (ha : ∀ rs rs', A rs → A (rs ++ rs')) {s s' : List Branch} (h : MoreRules s s') {p : Nat}
    (hp : HasRules A s p) : HasRules A s' p := by
  obtain ⟨br, h1, h2⟩ := hp
  obtain ⟨br', rs, h3, h4⟩ := h p br h1
  exact ⟨br', h3, by rw [h4]; exact ha _ _ h2⟩

theorem moreRules_set {s : List Branch} {b : Nat} {br : Branch} (h : s[b]? = some br) (st : List Frame) (rs : List Rule) :
    MoreRules s (s.set b ⟨st, br.rules ++ rs⟩) := by
  intro p br' hp
  have hb := (List.getElem?_eq_some_iff.mp h).1
  by_cases he : b = p
  · subst he
    rw [h] at hp
    cases hp
    exact ⟨_, rs, by rw [List.getElem?_set, if_pos rfl, if_pos hb], rfl⟩
  · exact ⟨br', [], by rw [List.getElem?_set, if_neg he]; exact hp, by simp⟩

theorem moreRules_append (s s' : List Branch) : MoreRules s (s ++ s') := by
  intro p br hp
  have hb := (List.getElem?_eq_some_iff.mp hp).1
  exact ⟨br, [], by rw [List.getElem?_append_left hb]; exact hp, by simp⟩

/-- Pointers in use while branches `i`, …, `n - 1` are to be handled. -/
structure Tracks (A B : List Rule → Prop) (i n : Nat) (rc : RC) : Prop where
  q : ∀ p ∈ rc.q, HasRules A rc.store p
  arr : ∀ j, i ≤ j → j < n → ∀ p, (rc.moved.getD rc.cur)[j]? = some p → HasRules A rc.store p
  cur : ∀ p ∈ rc.cur.take rc.len, HasRules B rc.store p
  left : ∀ p, rc.lastSuccess = some p → HasRules A rc.store p
  len : rc.len ≤ rc.cur.length

/-- Something may be chosen. -/
def EndsUp (A : List Rule → Prop) (rc : RC) : Prop := rc.len ≠ 0 ∨ rc.lastSuccess.isSome ∨ ∃ p, rc.lastError = some p ∧ HasRules A rc.store p

theorem Tracks.more {tok : Option Token} {A B : List Rule → Prop} (hg : Grows tok A B) {i n : Nat} {rc : RC} (h : Tracks A B i n rc)
    {s : List Branch} (hs : MoreRules rc.store s) : Tracks A B i n { rc with store := s } :=
  ⟨fun p hp => (h.q p hp).more hg.a hs, fun j h1 h2 p hp => (h.arr j h1 h2 p hp).more hg.a hs, fun p hp => (h.cur p hp).more hg.b hs,
    fun p hp => (h.left p hp).more hg.a hs, h.len⟩

theorem EndsUp.more {tok : Option Token} {A B : List Rule → Prop} (hg : Grows tok A B) {rc : RC} (h : EndsUp A rc)
    {s : List Branch} (hs : MoreRules rc.store s) : EndsUp A { rc with store := s } :=
  h.imp_right (Or.imp_right fun ⟨p, h1, h2⟩ => ⟨p, h1, h2.more hg.a hs⟩)

theorem append_tracks {tok : Option Token} {A B : List Rule → Prop} (hg : Grows tok A B) (grow : Nat → Nat) {i n : Nat} {rc : RC} {b : Nat}
    (h : Tracks A B i n rc) (hb : HasRules B rc.store b) : Tracks A B i n (rc.append grow b) := by
  obtain ⟨h1, h2, h3, h4⟩ := append_rest grow rc b
  obtain ⟨h5, h6⟩ := append_take (grow := grow) (b := b) h.len
  refine ⟨by rw [h1, h2]; exact h.q, ?_, ?_, by rw [h1, h3]; exact h.left, h6⟩
  · rw [h1]
    have hA : HasRules A rc.store b := by
      obtain ⟨br, h7, h8⟩ := hb
      exact ⟨br, h7, hg.ba _ h8⟩
    intro j hij hjn p hp
    unfold RC.append at hp
    split at hp
    · dsimp only at hp
      cases hm : rc.moved with
      | none =>
        rw [hm, Option.getD_none, List.getElem?_set] at hp
        split at hp
        · cases hp
          exact hA
        · exact h.arr j hij hjn p (by rw [hm]; exact hp)
      | some l => rw [hm] at hp; exact h.arr j hij hjn p (by rw [hm]; exact hp)
    · exact h.arr j hij hjn p hp
  · rw [h1, h5]
    intro p hp
    rcases List.mem_append.mp hp with hp | hp
    · exact h.cur p hp
    · rw [List.mem_singleton.mp hp]; exact hb

theorem apply_tracks {env : PEnv σ} {tok : Option Token} {A B : List Rule → Prop} (hg : Grows tok A B) {i n : Nat} {rc rc' : RC} {b : Nat}
    {r : Rule} (h : Tracks A B i n rc) (hb : HasRules A rc.store b) (he : rc.apply env tok b r = some rc') :
    Tracks A B i n rc' ∧ MoreRules rc.store rc'.store ∧ (rc'.q ≠ [] ∨ EndsUp A rc') ∧ (rc.q ≠ [] → rc'.q ≠ []) ∧ (EndsUp A rc → EndsUp A rc') := by
  obtain ⟨br, h1, h2⟩ := hb
  unfold RC.apply at he
  rw [h1, Option.bind_some, Option.map_eq_some_iff] at he
  obtain ⟨⟨st, c⟩, h3, he⟩ := he
  have hc : c = consumes r tok := by
    unfold applyQuiet at h3
    split at h3
    · cases h3
    · rw [Option.bind_eq_some_iff] at h3
      obtain ⟨f, -, h3⟩ := h3
      obtain ⟨_, -, h3⟩ := Option.map_eq_some_iff.mp h3
      cases h3; rfl
  dsimp only at he
  have hmore := moreRules_set h1 st [r]
  have hup := h.more hg hmore
  have hlt := (List.getElem?_eq_some_iff.mp h1).1
  have hget : (rc.store.set b ⟨st, br.rules ++ [r]⟩)[b]? = some ⟨st, br.rules ++ [r]⟩ := by
    rw [List.getElem?_set, if_pos rfl, if_pos hlt]
  have hends : EndsUp A rc → EndsUp A { rc with store := rc.store.set b ⟨st, br.rules ++ [r]⟩ } := fun h => h.more hg hmore
  split at he
  · rename_i hcc
    cases he
    have hq := append_tracks hg env.grow hup (b := b) ⟨_, hget, hg.step _ _ h2 (by rw [← hc]; exact hcc)⟩
    obtain ⟨e1, e2, e3, e4⟩ := append_rest env.grow { rc with store := rc.store.set b ⟨st, br.rules ++ [r]⟩ } b
    have hl : (RC.append env.grow { rc with store := rc.store.set b ⟨st, br.rules ++ [r]⟩ } b).len ≠ 0 := by unfold RC.append; split <;> simp
    exact ⟨hq, by rw [e1]; exact hmore, .inr (.inl hl), fun h => by rw [e2]; exact h, fun _ => .inl hl⟩
  · split at he
    · cases he
      refine ⟨⟨hup.q, hup.arr, hup.cur, fun p hp => ?_, hup.len⟩, hmore, .inr (.inr (.inl rfl)), fun h => h, fun _ => .inr (.inl rfl)⟩
      cases hp
      exact ⟨_, hget, hg.a _ _ h2⟩
    · cases he
      refine ⟨⟨fun p hp => ?_, hup.arr, hup.cur, hup.left, hup.len⟩, hmore, .inl (by simp), fun _ => by simp, hends⟩
      rcases List.mem_append.mp hp with hp | hp
      · exact hup.q p hp
      · rw [List.mem_singleton.mp hp]
        exact ⟨_, hget, hg.a _ _ h2⟩

theorem applyAll_tracks {env : PEnv σ} {tok : Option Token} {A B : List Rule → Prop} (hg : Grows tok A B) {i n : Nat} (l : List (Nat × Rule))
    {rc rc' : RC} (h : Tracks A B i n rc) (hl : ∀ x ∈ l, HasRules A rc.store x.1) (hne : l ≠ []) (he : rc.applyAll env tok l = some rc') :
    Tracks A B i n rc' ∧ (rc'.q ≠ [] ∨ EndsUp A rc') := by
  induction l generalizing rc with
  | nil => exact absurd rfl hne
  | cons x l ih =>
    obtain ⟨p, r⟩ := x
    rw [RC.applyAll, Option.bind_eq_some_iff] at he
    obtain ⟨rc1, h1, he⟩ := he
    obtain ⟨h2, h3, h4, -, -⟩ := apply_tracks hg h (hl (p, r) (by simp)) h1
    cases l with
    | nil => rw [RC.applyAll] at he; cases he; exact ⟨h2, h4⟩
    | cons y l => exact ih h2 (fun x hx => (hl x (by simp [List.mem_cons.mp hx])).more hg.a h3) (by simp) he

theorem drain_tracks {env : PEnv σ} {tok : Option Token} {A B : List Rule → Prop} (hg : Grows tok A B) {i n : Nat} (fuel : Nat) {rc rc' : RC}
    (h : Tracks A B i n rc) (hp : rc.q ≠ [] ∨ EndsUp A rc) (he : rc.drain env tok fuel = .done rc') :
    Tracks A B i n rc' ∧ EndsUp A rc' ∧ rc'.q = [] := by
  induction fuel generalizing rc with
  | zero => simp [RC.drain] at he
  | succ fuel ih =>
    rw [RC.drain] at he
    cases hq : rc.q with
    | nil =>
      rw [hq] at he
      cases he
      exact ⟨h, hp.resolve_left (by simp [hq]), hq⟩
    | cons b q =>
      rw [hq] at he
      dsimp only at he
      rw [orPanic_done] at he
      obtain ⟨br, h1, he⟩ := he
      have hb := h.q b (by rw [hq]; simp)
      have h' : Tracks A B i n { rc with q := q } := ⟨fun p hp => h.q p (by rw [hq]; simp [hp]), h.arr, h.cur, h.left, h.len⟩
      split at he
      · exact ih (rc := { rc with q := q, lastSuccess := some b }) ⟨h'.q, h'.arr, h'.cur, fun p hp => (by cases hp; exact hb), h'.len⟩ (.inr (.inr (.inl rfl))) he
      · rw [orPanic_done] at he
        obtain ⟨rules, -, he⟩ := he
        split at he
        · exact ih (rc := { rc with q := q, lastError := some b }) ⟨h'.q, h'.arr, h'.cur, h'.left, h'.len⟩ (.inr (.inr (.inr ⟨b, rfl, hb⟩))) he
        · rw [orPanic_done] at he
          obtain ⟨rc1, h2, he⟩ := he
          obtain ⟨h3, -, h4, -, -⟩ := apply_tracks hg h' hb h2
          exact ih h3 h4 he
        · rename_i r r' rs
          rw [RC.split] at he
          dsimp only at he
          rw [orPanic_done] at he
          obtain ⟨rc1, h2, he⟩ := he
          obtain ⟨br0, e1, e2⟩ := hb
          rw [h1] at e1
          cases e1
          have hm := moreRules_append rc.store (List.replicate ((r :: r' :: rs).length - 1) br)
          obtain ⟨h3, h4⟩ := applyAll_tracks hg _ (h'.more hg (s := rc.store ++ List.replicate ((r :: r' :: rs).length - 1) br) hm) (fun x hx => by
            rcases List.mem_cons.mp (List.of_mem_zip hx).1 with h5 | h5
            · rw [h5]
              exact HasRules.more hg.a hm ⟨br, h1, e2⟩
            · obtain ⟨k, hk, h6⟩ := List.mem_map.mp h5
              rw [← h6]
              refine ⟨br, ?_, e2⟩
              dsimp only
              rw [List.getElem?_append_right (by omega), List.getElem?_replicate, if_pos (by have := List.mem_range.mp hk; omega)])
            (by simp) h2
          exact ih h3 h4 he

theorem overBranches_tracks {env : PEnv σ} {tok : Option Token} {A B : List Rule → Prop} (hg : Grows tok A B) (fuel count i : Nat) {rc rc' : RC}
    (h : Tracks A B i (i + count) rc) (hq : rc.q = []) (hp : count ≠ 0 ∨ EndsUp A rc) (he : rc.overBranches env tok fuel count i = .done rc') :
    (∀ p ∈ rc'.cur.take rc'.len, HasRules B rc'.store p) ∧ (∀ p, rc'.lastSuccess = some p → HasRules A rc'.store p) ∧ EndsUp A rc' ∧ rc'.q = [] ∧
      rc'.len ≤ rc'.cur.length := by
  induction count generalizing i rc with
  | zero =>
    rw [RC.overBranches] at he
    cases he
    exact ⟨h.cur, h.left, hp.resolve_left (by simp), hq, h.len⟩
  | succ count ih =>
    rw [RC.overBranches, orPanic_done] at he
    obtain ⟨b, h1, he⟩ := he
    rw [bindRun_done] at he
    obtain ⟨rc1, h2, he⟩ := he
    have hb := h.arr i (le_refl _) (by omega) b h1
    obtain ⟨h3, h4, h5⟩ := drain_tracks hg (i := i + 1) (n := i + (count + 1)) fuel (rc := { rc with q := rc.q ++ [b] }) ⟨fun p hp => by
      dsimp only at hp
      rw [hq, List.nil_append, List.mem_singleton] at hp
      rw [hp]; exact hb, fun j h1 h2 => h.arr j (by omega) h2, h.cur, h.left, h.len⟩ (.inl (by simp)) h2
    exact ih (i + 1) (by rw [show i + 1 + count = i + (count + 1) by omega]; exact h3) h5 (.inr h4) he

theorem conflictLoop_leftOver {env : PEnv σ} (fuel : Nat) {pc pc' : PC σ} {tok : Option Token} {ts tokens : List (Option Token)} {rc : RC}
    {rules : List Rule} (hn : pc.tokens = []) (hr : ∀ p ∈ rc.cur.take rc.len, HasRules (fun rs => leftOver ts rs = []) rc.store p) (hl : rc.len ≠ 0)
    (hle : rc.len ≤ rc.cur.length) (hq : rc.q = []) (h : conflictLoop env fuel pc tok ts rc = .done (pc', tokens, rules)) :
    (leftOver tokens rules).length ≤ 1 ∧ pc'.tokens = [] := by
  induction fuel generalizing pc tok ts rc with
  | zero => simp [conflictLoop] at h
  | succ fuel ih =>
    rw [conflictLoop, bindRun_done] at h
    obtain ⟨rc1, h1, h⟩ := h
    rw [RC.round] at h1
    obtain ⟨h2, h3, h4, h5, h6⟩ := overBranches_tracks (leftOver_grows ts tok) fuel rc.len 0 (rc := { rc with len := 0, moved := none, lastSuccess := none })
      ⟨by rw [show ({ rc with len := 0, moved := none, lastSuccess := none } : RC).q = [] from hq]; simp, fun j _ hj p hp => hr p (by
        dsimp only [Option.getD_none] at hp
        exact List.mem_of_getElem? (i := j) (by rw [List.getElem?_take, if_pos (by omega)]; exact hp)), by simp, by simp, Nat.zero_le _⟩ hq (.inl hl) h1
    have hch : ∀ rules, rc1.chosen = some rules → (leftOver (ts ++ [tok]) rules).length ≤ 1 := by
      intro rules hc
      have key : leftOver ts rules = [] := by
        unfold RC.chosen at hc
        obtain ⟨p, h7, h8⟩ := Option.bind_eq_some_iff.mp hc
        obtain ⟨br, h9, rfl⟩ := Option.map_eq_some_iff.mp h8
        have hfin : HasRules (fun rs => leftOver ts rs = []) rc1.store p → leftOver ts br.rules = [] := by
          rintro ⟨br', e1, e2⟩
          rw [h9] at e1
          cases e1
          exact e2
        split at h7
        · rename_i hlen
          apply hfin
          obtain ⟨br', e1, e2⟩ := h2 p (List.mem_of_getElem? (i := 0) (by rw [List.getElem?_take, if_pos (by omega)]; exact h7))
          exact ⟨br', e1, leftOver_fewer e2⟩
        · rename_i hlen
          split at h7
          · rename_i b hs
            cases h7
            exact hfin (h3 _ hs)
          · rename_i hs
            rcases h4 with h4 | h4 | ⟨p', h4, h4'⟩
            · exact absurd h4 hlen
            · rw [hs] at h4; cases h4
            · rw [h4] at h7; cases h7
              exact hfin h4'
      rcases leftOver_token key tok with e | e <;> rw [e] <;> simp
    dsimp only at h
    have hfin : ∀ pc1 : PC σ, pc1.tokens = [] → orPanic rc1.chosen (fun rules => Run.done (pc1, ts ++ [tok], rules)) = .done (pc', tokens, rules) →
        (leftOver tokens rules).length ≤ 1 ∧ pc'.tokens = [] := by
      intro pc1 hpc1 h
      obtain ⟨rs, h7, h⟩ := orPanic_done.mp h
      cases h
      exact ⟨hch _ h7, hpc1⟩
    split at h
    · exact hfin _ hn h
    · split at h
      · exact hfin _ hn h
      · rename_i hlen _
        rw [bindRun_done] at h
        obtain ⟨⟨pc1, r⟩, h7, h⟩ := h
        have hpc1 : pc1.tokens = [] := by
          have := nextToken_left h7
          rw [hn] at this
          exact List.eq_nil_iff_forall_not_mem.mpr fun t ht => by simpa using this t ht
        cases r with
        | error e => exact hfin _ hpc1 h
        | ok tok' => exact ih hpc1 h2 (by omega) h6 h5 h

end Verif.Proof
