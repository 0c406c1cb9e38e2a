/-
Tokens read ahead: chosen rules use all of them, or all but the last one, so a token put back is the last one pulled.
-/
import Verif.Proof.Conflict
import Verif.Proof.FullSource

namespace Verif.Proof

open Verif.Model Verif.Spec Verif.Props
open Verif.Model.Tree (bindRun)

variable {σ : Type} {g : Grammar} {upper : List Nat → List Nat}

/-! ### Chosen rules and tokens -/

/-- Rules use the tokens one after another up to the end; if `b`, the last token may be left. -/
inductive Ahead (b : Bool) : List (Option Token) → List Rule → Prop
  | nil : Ahead b [] []
  | last {t} : b = true → Ahead b [t] []
  | use {t ts r rs} : consumes r t = true → Ahead b ts rs → Ahead b (t :: ts) (r :: rs)
  | go {t ts r rs} : consumes r t = false → Ahead b (t :: ts) rs → Ahead b (t :: ts) (r :: rs)

theorem move_consumes {tok : Option Token} {st : List Int} {r : Rule} {st' : List Int} {u : Bool} (h : Move g upper tok st r st' u) :
    consumes r tok = u := by
  obtain ⟨s, rest, rules, top, -, -, -, -, -, h6⟩ := h
  exact Bool.eq_iff_iff.mpr ((consumes_spec r tok).trans h6.symm)

theorem takes_ahead {b : Bool} {tok : Option Token} {ts : List (Option Token)} {st st' : List Int} {rs rs' : List Rule}
    (h : Takes g upper tok st rs st') (h' : Ahead b ts rs') : Ahead b (tok :: ts) (rs ++ rs') := by
  induction h with
  | use hm => exact .use (move_consumes hm) h'
  | go hm _ ih => exact .go (move_consumes hm) ih

theorem takesAll_ahead {b : Bool} {ts ts' : List (Option Token)} {st st' : List Int} {rs rs' : List Rule}
    (h : TakesAll g upper ts st rs st') (h' : Ahead b ts' rs') : Ahead b (ts ++ ts') (rs ++ rs') := by
  induction h with
  | nil => exact h'
  | cons h1 _ ih => rw [List.append_assoc]; exact takes_ahead h1 ih

theorem leaves_ahead {tok : Option Token} {st : List Int} {rs : List Rule} (h : Leaves g upper tok st rs) : Ahead true [tok] rs := by
  induction h with
  | now => exact .last rfl
  | go hm _ ih => exact .go (move_consumes hm) ih

theorem stuck_ahead {tok : Option Token} {st : List Int} {rs : List Rule} (h : Stuck g upper tok st rs) : Ahead true [tok] rs := by
  induction h with
  | now => exact .last rfl
  | go hm _ ih => exact .go (move_consumes hm) ih

theorem chosen_ahead {start : List Int} {tokens : List (Option Token)} {rules : List Rule} (h : Chosen g upper start tokens rules) :
    Ahead true tokens rules ∧ ((∃ rs st, TakesAll g upper tokens start rs st) → Ahead false tokens rules) := by
  constructor
  · obtain ⟨ts, last, rfl, ⟨st, h1⟩ | ⟨rs1, st, rs2, h1, rfl, h2 | h2⟩⟩ := h.shape
    · simpa using takesAll_ahead h1 (.nil (b := true))
    · exact takesAll_ahead h1 (leaves_ahead h2)
    · exact takesAll_ahead h1 (stuck_ahead h2)
  · intro h1
    obtain ⟨st, h2⟩ := h.taken h1
    simpa using takesAll_ahead h2 (.nil (b := false))

/-! ### Types requested by a lookahead -/

/-- Expected types of nodes of branches are those of states. -/
def BranchTypes (g : Grammar) (rc : RC) : Prop := ∀ b ∈ rc.store, ∀ f ∈ b.stack, ∃ st ∈ g.tables.states, f.types = st.types

theorem popFrames_mem {l : List Frame} {f : Frame} (h : f ∈ popFrames l) : f ∈ l := by
  induction l with
  | nil => exact h
  | cons x l ih =>
    rw [popFrames] at h
    split at h
    · exact List.mem_cons_of_mem _ (ih h)
    · exact h

theorem applyQuiet_types {tok : Option Token} {r : Rule} {l l' : List Frame} {c : Bool}
    (hl : ∀ f ∈ l, ∃ st ∈ g.tables.states, f.types = st.types) (h : applyQuiet g tok r l = some (l', c)) :
    ∀ f ∈ l', ∃ st ∈ g.tables.states, f.types = st.types := by
  cases l with
  | nil => cases h
  | cons x l =>
    rw [applyQuiet, Option.bind_eq_some_iff] at h
    obtain ⟨x', hm, h⟩ := h
    rw [Option.map_eq_some_iff] at h
    obtain ⟨l1, h1, h⟩ := h
    cases h
    have hx : ∀ f ∈ x' :: l, ∃ st ∈ g.tables.states, f.types = st.types := by
      intro f hf
      rcases List.mem_cons.1 hf with rfl | hf
      · rcases moveFrame_types hm with e | e
        · rw [e]; exact hl x (by simp)
        · exact e
      · exact hl f (by simp [hf])
    intro f hf
    have hf := popFrames_mem hf
    split at h1
    · split at h1
      · obtain ⟨first, -, h1⟩ := Option.bind_eq_some_iff.1 h1
        obtain ⟨st, h2, h1⟩ := Option.map_eq_some_iff.1 h1
        subst h1
        rcases List.mem_cons.1 hf with rfl | hf
        · exact ⟨st, List.mem_of_getElem? h2, rfl⟩
        · exact hx f hf
      · cases h1
    · cases h1
      exact hx f hf

theorem apply_types {env : PEnv σ} {tok : Option Token} {rc rc' : RC} {b : Nat} {r : Rule} (hb : BranchTypes env.g rc)
    (h : rc.apply env tok b r = some rc') : BranchTypes env.g rc' := by
  rw [RC.apply, Option.bind_eq_some_iff] at h
  obtain ⟨br, h1, h⟩ := h
  rw [Option.map_eq_some_iff] at h
  obtain ⟨⟨l, c⟩, h2, h⟩ := h
  have key : ∀ x ∈ rc.store.set b ⟨l, br.rules ++ [r]⟩, ∀ f ∈ x.stack, ∃ st ∈ env.g.tables.states, f.types = st.types := by
    intro x hx
    rcases List.mem_or_eq_of_mem_set hx with hx | rfl
    · exact hb x hx
    · exact applyQuiet_types (hb br (List.mem_of_getElem? h1)) h2
  subst h
  dsimp only
  split
  · unfold RC.append
    split <;> exact key
  · split <;> exact key

theorem applyAll_types {env : PEnv σ} {tok : Option Token} (l : List (Nat × Rule)) {rc rc' : RC} (hb : BranchTypes env.g rc)
    (h : rc.applyAll env tok l = some rc') : BranchTypes env.g rc' := by
  induction l generalizing rc with
  | nil => cases h; exact hb
  | cons x l ih =>
    obtain ⟨b, r⟩ := x
    rw [RC.applyAll, Option.bind_eq_some_iff] at h
    obtain ⟨rc1, h1, h⟩ := h
    exact ih (apply_types hb h1) h

theorem drain_types {env : PEnv σ} {tok : Option Token} (fuel : Nat) {rc rc' : RC} (hb : BranchTypes env.g rc)
    (h : rc.drain env tok fuel = .done rc') : BranchTypes env.g rc' := by
  induction fuel generalizing rc with
  | zero => simp [RC.drain] at h
  | succ fuel ih =>
    rw [RC.drain] at h
    split at h
    · cases h; exact hb
    · dsimp only at h
      rw [orPanic_done] at h
      obtain ⟨br, h1, h⟩ := h
      split at h
      · refine ih ?_ h; exact hb
      · rw [orPanic_done] at h
        obtain ⟨rules, -, h⟩ := h
        split at h
        · refine ih ?_ h; exact hb
        · rw [orPanic_done] at h
          obtain ⟨rc1, h2, h⟩ := h
          refine ih (apply_types ?_ h2) h; exact hb
        · dsimp only [RC.split] at h
          rw [orPanic_done] at h
          obtain ⟨rc1, h2, h⟩ := h
          refine ih (applyAll_types _ ?_ h2) h
          intro x hx
          rcases List.mem_append.1 hx with hx | hx
          · exact hb x hx
          · rw [List.eq_of_mem_replicate hx]
            exact hb br (List.mem_of_getElem? h1)

theorem overBranches_types {env : PEnv σ} {tok : Option Token} {fuel : Nat} (count : Nat) {i : Nat} {rc rc' : RC} (hb : BranchTypes env.g rc)
    (h : rc.overBranches env tok fuel count i = .done rc') : BranchTypes env.g rc' := by
  induction count generalizing i rc with
  | zero => cases h; exact hb
  | succ count ih =>
    rw [RC.overBranches, orPanic_done] at h
    obtain ⟨b, -, h⟩ := h
    rw [bindRun_done] at h
    obtain ⟨rc1, h1, h⟩ := h
    refine ih (drain_types fuel ?_ h1) h; exact hb

theorem round_types {env : PEnv σ} {tok : Option Token} {fuel : Nat} {rc rc' : RC} (hb : BranchTypes env.g rc)
    (h : rc.round env tok fuel = .done rc') : BranchTypes env.g rc' :=
  overBranches_types _ (rc := { rc with len := 0, moved := none, lastSuccess := none }) hb h

theorem types_cover {rc : RC} (hb : BranchTypes g rc) (h : rc.types ≠ 0) : Covers g rc.types := by
  unfold RC.types at h ⊢
  have key : ∀ (l : List Nat) (acc : TokenTypeSet), (acc = 0 ∨ Covers g acc) →
      (l.foldl (fun (tts : TokenTypeSet) (b : Nat) => match (rc.store[b]?).bind (·.stack.head?) with
        | some top => tts ||| top.types
        | none => tts) acc = 0 ∨ Covers g (l.foldl (fun (tts : TokenTypeSet) (b : Nat) => match (rc.store[b]?).bind (·.stack.head?) with
        | some top => tts ||| top.types
        | none => tts) acc)) := by
    intro l
    induction l with
    | nil => exact fun acc h => h
    | cons x l ih =>
      intro acc hacc
      rw [List.foldl_cons]
      refine ih _ ?_
      split
      · rename_i top hx
        obtain ⟨br, h1, h2⟩ := Option.bind_eq_some_iff.1 hx
        obtain ⟨st, h3, h4⟩ := hb br (List.mem_of_getElem? h1) top (List.mem_of_mem_head? h2)
        refine .inr ⟨st, h3, fun i hi => ?_⟩
        rw [BitVec.getLsbD_or, h4, hi, Bool.or_true]
      · exact hacc
  exact (key _ 0 (.inl rfl)).resolve_left h

/-! ### Pulled tokens -/

/-- `K` is kept for what is left to read and for delivered tokens; `P` holds for a token just pulled for a state. -/
structure Feed (env : PEnv σ) (K : σ → List (Option Token) → Prop) (P : σ → Option Token → Prop) : Prop where
  keep : ∀ {fuel types pc pc' r}, K pc.src pc.delivered → nextLoop env types fuel pc = .done (pc', r) → K pc'.src pc'.delivered
  last : ∀ {fuel types pc pc' tok}, K pc.src pc.delivered → Covers env.g types → nextLoop env types fuel pc = .done (pc', .ok tok) →
    P pc'.src tok

theorem feed_and {env : PEnv σ} {K K' : σ → List (Option Token) → Prop} {P P' : σ → Option Token → Prop} (h : Feed env K P) (h' : Feed env K' P') :
    Feed env (fun s d => K s d ∧ K' s d) (fun s t => P s t ∧ P' s t) :=
  ⟨fun hk hn => ⟨h.keep hk.1 hn, h'.keep hk.2 hn⟩, fun hk hc hn => ⟨h.last hk.1 hc hn, h'.last hk.2 hc hn⟩⟩

theorem conflictLoop_kept {env : PEnv σ} {Q : Option Token → Prop} {K : σ → List (Option Token) → Prop} {P : σ → Option Token → Prop} (hfeed : Feed env K P) (hPQ : ∀ s t, P s t → Q t)
    (fuel : Nat) {start : Branch} {pc pc' : PC σ} {tok0 tok : Option Token} {ts tokens : List (Option Token)} {rc : RC} {o : Traced} {rules : List Rule}
    (hfit : ∀ ts L dead fuel tok, (ts ≠ [] → ts.head? = some tok0) → (∀ t ∈ ts, Q t) → Q tok → Rounds env.g env.upper start ts L →
      Fits env.g env.upper tok fuel 0 L { dead := dead })
    (h0 : (ts ++ [tok]).head? = some tok0) (hts : ∀ t ∈ ts, Q t) (hsim : Sim rc [] [] o []) (hr : Rounds env.g env.upper start ts o.next)
    (ht : Traces env.g env.upper (statesOf start.stack) ts o) (hb : BranchTypes env.g rc) (htok : pc.tokens = [])
    (hk : K pc.src pc.delivered) (hp : P pc.src tok) (h : conflictLoop env fuel pc tok ts rc = .done (pc', tokens, rules)) :
    pc'.tokens = [] ∧ K pc'.src pc'.delivered ∧
      ((∃ ts' x, tokens = ts' ++ [x] ∧ P pc'.src x) ∨ ∃ rs st, TakesAll env.g env.upper tokens (statesOf start.stack) rs st) := by
  induction fuel generalizing pc tok ts rc o with
  | zero => simp [conflictLoop] at h
  | succ fuel ih =>
    rw [conflictLoop, bindRun_done] at h
    obtain ⟨rc1, h1, h⟩ := h
    obtain ⟨o1, h2, hsim1⟩ := round_sim hsim (hfit _ _ _ _ _ (fun hne => by
      cases ts with
      | nil => exact absurd rfl hne
      | cons t ts => simpa using h0) hts (hPQ _ _ hp) hr) h1
    obtain ⟨ht1, -⟩ := traces_step ht h2
    have hb1 := round_types hb h1
    dsimp only at h
    split at h
    · obtain ⟨_, -, h⟩ := orPanic_done.mp h
      cases h
      exact ⟨htok, hk, .inl ⟨_, _, rfl, hp⟩⟩
    · split at h
      · obtain ⟨_, -, h⟩ := orPanic_done.mp h
        cases h
        exact ⟨htok, hk, .inl ⟨_, _, rfl, hp⟩⟩
      · rename_i hlen hty
        rw [bindRun_done] at h
        obtain ⟨⟨pc1, r⟩, h3, h⟩ := h
        rw [nextToken, htok] at h3
        have hk1 := hfeed.keep hk h3
        have htok1 : pc1.tokens = [] := by
          obtain ⟨src, rfl⟩ := nextLoop_spec fuel h3
          exact htok
        cases r with
        | error e =>
          obtain ⟨_, -, h⟩ := orPanic_done.mp h
          cases h
          refine ⟨htok1, hk1, .inr ?_⟩
          rw [← sim_len hsim1] at hlen
          obtain ⟨x, hx⟩ := List.exists_mem_of_ne_nil o1.next (by intro he; rw [he] at hlen; simp at hlen)
          exact ⟨_, _, ht1.sound x hx⟩
        | ok tok' =>
          refine ih (by simpa using h0) ?_ hsim1 (.step hr h2) ht1 hb1 htok1 hk1 (hfeed.last hk (types_cover hb1 hty) h3) h
          intro t ht
          rcases List.mem_append.mp ht with ht | ht
          · exact hts t ht
          · rw [List.mem_singleton.mp ht]; exact hPQ _ _ hp

theorem resolve_kept {env : PEnv σ} {Q : Option Token → Prop} (hQ : Feeds env Q) (hsafe : SafeLookaheadOn Q env.g env.upper) {K : σ → List (Option Token) → Prop} {P : σ → Option Token → Prop}
    (hfeed : Feed env K P) (hPQ : ∀ s t, P s t → Q t) {fuel : Nat} {pc pc' : PC σ} {tok : Option Token} {node : NodeRec} {rest : List NodeRec}
    {tokens : List (Option Token)} {rules0 rules : List Rule} (hs : pc.stack = node :: rest) (hst : StateTypes env.g pc.stack)
    (hf : findRules env.g env.upper tok node.state = some rules0) (hl : 1 < rules0.length) (htok : pc.tokens = [])
    (hk : K pc.src pc.delivered) (hp : P pc.src tok) (h : resolveConflict env fuel pc tok = .done (pc', tokens, rules)) :
    pc'.tokens = [] ∧ K pc'.src pc'.delivered ∧ ∃ b, Ahead b tokens rules ∧ (b = true → ∃ ts' x, tokens = ts' ++ [x] ∧ P pc'.src x) := by
  have hc := (resolve_chosen_on hQ hsafe hs hf hl (hPQ _ _ hp) (by rw [htok]; simp) h).1
  rw [resolveConflict, hs] at h
  dsimp only [List.head?_cons, orPanic] at h
  have hfit : ∀ ts L dead fuel tok1, (ts ≠ [] → ts.head? = some tok) → (∀ t ∈ ts, Q t) → Q tok1 → Rounds env.g env.upper ⟨[node.toFrame], []⟩ ts L →
      Fits env.g env.upper tok1 fuel 0 L { dead := dead } := by
    intro ts L dead fuel tok1 hh hq1 hq2 hr
    cases ts with
    | nil =>
      generalize hts : ([] : List (Option Token)) = ts at hr
      cases hr with
      | nil => exact ⟨by simp, fun _ _ => trivial⟩
      | step _ _ => simp at hts
    | cons t ts =>
      have : t = tok := by simpa using hh
      subst this
      exact hsafe _ _ _ (hPQ _ _ hp) hf hl ts L (fun t ht => hq1 t (by simp [ht])) hr tok1 dead fuel hq2
  have hb : BranchTypes env.g { store := [⟨[node.toFrame], []⟩], cur := [0], len := 1 } := by
    intro b hb f hf
    rw [List.mem_singleton.1 hb] at hf
    rw [List.mem_singleton.1 hf]
    exact hst node (by rw [hs]; simp)
  obtain ⟨h1, h2, h3⟩ := conflictLoop_kept hfeed hPQ fuel hfit (by simp) (by simp) (start_sim _) .nil (traces_start _ rfl) hb htok hk hp h
  refine ⟨h1, h2, ?_⟩
  obtain ⟨h4, h5⟩ := chosen_ahead hc
  rcases h3 with h3 | h3
  · exact ⟨true, h4, fun _ => h3⟩
  · exact ⟨false, h5 h3, by simp⟩

/-- Tokens and rules left from a lookahead; `P` holds for the last token if it may be left. -/
def Pending (P : σ → Option Token → Prop) (s : σ) (ts : List (Option Token)) (rs : List Rule) : Prop :=
  ∃ b, Ahead b ts rs ∧ (b = true → ∀ ts' x, ts = ts' ++ [x] → P s x)

theorem pending_none {P : σ → Option Token → Prop} {s : σ} {t : Option Token} {ts : List (Option Token)} (h : Pending P s (t :: ts) []) :
    ts = [] ∧ P s t := by
  obtain ⟨b, h1, h2⟩ := h
  cases h1 with
  | last hb => exact ⟨rfl, h2 hb [] t rfl⟩

theorem pending_step {P : σ → Option Token → Prop} {s : σ} {t : Option Token} {ts : List (Option Token)} {r : Rule} {rs : List Rule}
    (h : Pending P s (t :: ts) (r :: rs)) : Pending P s (if consumes r t then ts else t :: ts) rs := by
  obtain ⟨b, h1, h2⟩ := h
  cases h1 with
  | use hc h1 =>
    rw [if_pos hc]
    exact ⟨b, h1, fun hb ts' x hx => h2 hb (t :: ts') x (by rw [hx]; rfl)⟩
  | go hc h1 =>
    rw [hc]
    exact ⟨b, h1, h2⟩

theorem ahead_inv_on {env : PEnv σ} {Q : Option Token → Prop} (hQ : Feeds env Q) (hsafe : SafeLookaheadOn Q env.g env.upper) {K : σ → List (Option Token) → Prop} {P : σ → Option Token → Prop}
    (hfeed : Feed env K P) (hPQ : ∀ s t, P s t → Q t) :
    LoopInv env
      (fun pc tok => StateTypes env.g pc.stack ∧ K pc.src pc.delivered ∧ Pending P pc.src (tok :: pc.tokens) pc.applied)
      (fun pc => StateTypes env.g pc.stack ∧ K pc.src pc.delivered ∧ Pending P pc.src pc.tokens pc.applied) where
  token := by
    intro fuel pc pc' tok node rest hj hs h
    obtain ⟨h1, h2, h3⟩ := hj
    rw [nextToken] at h
    cases ht : pc.tokens with
    | cons t ts =>
      rw [ht] at h h3
      cases h
      exact ⟨h1, h2, h3⟩
    | nil =>
      rw [ht] at h h3
      have h4 := hfeed.keep h2 h
      obtain ⟨st, h5, h6⟩ := h1 node (by rw [hs]; simp)
      have h7 := hfeed.last h2 (by rw [h6]; exact covers_state h5) h
      obtain ⟨src, rfl⟩ := nextLoop_spec fuel h
      refine ⟨h1, h4, ?_⟩
      obtain ⟨b, h8, -⟩ := h3
      generalize hap : pc.applied = ap at h8
      cases h8
      simp only [ht]
      refine ⟨true, .last rfl, fun _ ts' x hx => ?_⟩
      have := List.append_inj' (s₁ := ([] : List (Option Token))) (t₁ := [tok]) hx rfl
      simp only [List.cons.injEq, and_true] at this
      rw [← this.2]
      exact h7
  step := by
    intro fuel pc pc1 pc2 tok node rest r b hi hs h1 h2
    obtain ⟨h3, h4, h5⟩ := hi
    have key : pc1.stack = pc.stack → K pc1.src pc1.delivered → Pending P pc1.src (if consumes r tok then pc1.tokens else tok :: pc1.tokens) pc1.applied →
        Phase (fun pc tok => StateTypes env.g pc.stack ∧ K pc.src pc.delivered ∧ Pending P pc.src (tok :: pc.tokens) pc.applied)
          (fun pc => StateTypes env.g pc.stack ∧ K pc.src pc.delivered ∧ Pending P pc.src pc.tokens pc.applied) b pc2 tok := by
      intro e1 e2 e3
      have h6 := applyRule_types (by rw [e1]; exact h3) h2
      obtain ⟨hb, stack, log, last, rfl⟩ := applyRule_spec h2
      rw [← hb] at e3
      cases b <;> exact ⟨h6, e2, e3⟩
    rw [nextRule] at h1
    cases ha : pc.applied with
    | cons a as =>
      rw [ha] at h1 h5
      cases h1
      exact key rfl h4 (pending_step h5)
    | nil =>
      rw [ha] at h1 h5
      obtain ⟨hnil, hP⟩ := pending_none h5
      obtain ⟨rules, hr, h1⟩ := orPanic_done.mp h1
      match rules, hr, h1 with
      | [], _, h1 => cases h1
      | [x], _, h1 =>
        cases h1
        refine key rfl h4 ?_
        rw [ha]
        split
        · rw [hnil]
          exact ⟨false, .nil, by simp⟩
        · exact h5
      | x :: y :: zs, hr, h1 =>
        dsimp only at h1
        rw [bindRun_done] at h1
        obtain ⟨⟨pc0, toks, rules⟩, h6, h1⟩ := h1
        dsimp only at h1
        obtain ⟨r', hr', h1⟩ := orPanic_done.mp h1
        cases h1
        obtain ⟨k1, k2, b', k3, k4⟩ := resolve_kept hQ hsafe hfeed hPQ hs h3 hr (by simp) hnil h4 hP h6
        rw [resolveConflict] at h6
        obtain ⟨top, -, h6⟩ := orPanic_done.mp h6
        obtain ⟨src, ts, dl, more, rfl, e2, -⟩ := conflictLoop_spec fuel h6
        rw [List.nil_append] at e2
        subst e2
        simp only at k1 k2 k4
        subst k1
        cases rules with
        | nil => cases hr'
        | cons r0 rs =>
          cases hr'
          refine key rfl k2 ?_
          simp only [List.drop_one, List.tail_cons, List.append_nil]
          refine pending_step ⟨b', k3, fun hb ts' x hx => ?_⟩
          obtain ⟨ts'', x', k5, k6⟩ := k4 hb
          rw [hx] at k5
          obtain ⟨-, k7⟩ := List.append_inj' k5 rfl
          cases k7
          exact k6

theorem ahead_inv {env : PEnv σ} (hsafe : SafeLookahead env.g env.upper) {K : σ → List (Option Token) → Prop} {P : σ → Option Token → Prop}
    (hfeed : Feed env K P) :
    LoopInv env
      (fun pc tok => StateTypes env.g pc.stack ∧ K pc.src pc.delivered ∧ Pending P pc.src (tok :: pc.tokens) pc.applied)
      (fun pc => StateTypes env.g pc.stack ∧ K pc.src pc.delivered ∧ Pending P pc.src pc.tokens pc.applied) :=
  ahead_inv_on (feeds_true env) (safeOn_of_safe hsafe _) hfeed fun _ _ _ => trivial

theorem side_consumes {t : Token} {s : Int} {rules : List Rule} {r : Rule}
    (hs : g.isSideType t.type = true) (h : findRules g upper (some t) s = some rules) (hr : r ∈ rules) : consumes r (some t) = true := by
  unfold findRules at h
  cases hi : Go.index g.tables.states s with
  | none => rw [hi] at h; cases h
  | some gs =>
    rw [hi, Option.bind_some] at h
    simp only [hs, if_true] at h
    cases h
    cases List.mem_singleton.1 hr
    rw [consumes_iff]
    right
    refine ⟨rfl, ?_⟩
    intro he
    rw [Grammar.isSideType, if_neg (by simp only at he; omega)] at hs
    cases hs

/-- Rules left are used before the root node ends. A token that is not used by the last rule is not a side one. -/
theorem side_inv {env : PEnv σ} (hsafe : SafeLookahead env.g env.upper) :
    LoopInv env
      (fun pc tok => Follows env pc (tok :: pc.tokens) ∧ (pc.stack = [] → ∀ t, tok = some t → env.g.isSideType t.type = false))
      (fun pc => Follows env pc pc.tokens) where
  token := by
    intro fuel pc pc' tok node rest hj hs h
    refine ⟨(follows_inv hsafe).token hj hs h, fun h5 => ?_⟩
    obtain ⟨src, ts, dl, rfl, -⟩ := nextToken_spec h
    simp only [hs] at h5
    cases h5
  step := by
    intro fuel pc pc1 pc2 tok node rest r b hi hs h1 h2
    have h3 := (follows_inv hsafe).step hi.1 hs h1 h2
    cases b with
    | true => exact h3
    | false =>
      refine ⟨h3, ?_⟩
      rintro - t rfl
      obtain ⟨rules, h4, h5⟩ := follows_rule hsafe hi.1 hs h1
      obtain ⟨hb, -⟩ := applyRule_spec h2
      cases hsd : env.g.isSideType t.type with
      | false => rfl
      | true =>
        rw [side_consumes hsd h4 h5] at hb
        cases hb

theorem follows_end {env : PEnv σ} {pc : PC σ} {ts : List (Option Token)} (h : Follows env pc ts) (hs : pc.stack = []) : pc.applied = [] := by
  obtain ⟨st, below, h1, h2⟩ := h
  rw [hs] at h1
  have : st = [] := (List.append_eq_nil_iff.1 h1.symm).1
  subst this
  exact legal_ne h2

theorem restLoop_kept {env : PEnv σ} {K : σ → List (Option Token) → Prop} {P : σ → Option Token → Prop} (hfeed : Feed env K P) (fuel : Nat)
    {pc pc' : PC σ} (hk : K pc.src pc.delivered) (h : restLoop env fuel pc = .done (.ok pc')) : K pc'.src pc'.delivered := by
  induction fuel generalizing pc with
  | zero => simp [restLoop] at h
  | succ fuel ih =>
    rw [restLoop, bindRun_done] at h
    obtain ⟨⟨pc1, r⟩, h1, h⟩ := h
    have h2 : K pc1.src pc1.delivered := by
      rw [nextToken] at h1
      split at h1
      · cases h1; exact hk
      · exact hfeed.keep hk h1
    match r, h1, h with
    | .ok (some t), h1, h =>
      dsimp only at h
      split at h
      · cases h; exact h2
      · split at h
        · exact ih h2 h
        · cases h

/-- Tokens that can be read again. -/
theorem pulled_feed {env : PEnv σ} {Good : σ → Prop} (hr : Rereads env Good) : Feed env (fun s _ => Good s) (Pulled env Good) where
  keep := by
    intro fuel types pc pc' r hk h
    induction fuel generalizing pc with
    | zero => simp [nextLoop] at h
    | succ fuel ih =>
      rw [nextLoop, bindRun_done] at h
      obtain ⟨⟨src, res⟩, h1, h⟩ := h
      cases res with
      | error e => cases h; exact hr.keep hk h1
      | ok t =>
        dsimp only at h
        split at h
        · exact ih (pc := { pc with src := src }) (hr.keep hk h1) h
        · cases h; exact hr.keep hk h1
  last := by
    intro fuel types pc pc' tok hk hc h
    obtain ⟨s0, h1, h2, h3⟩ := nextLoop_pulled (fun h1 h2 => hr.keep h1 h2) fuel hk h
    exact ⟨s0, types, hc, h1, h2, h3⟩

/-- Nothing is left when a parse with the option succeeds and tokens can be read again; what is kept by pulling is kept. -/
theorem parse_kept {env : PEnv σ} {Good : σ → Prop} (hr : Rereads env Good) (hsafe : SafeLookahead env.g env.upper)
    (hf : env.fullSource = true) {K : σ → List (Option Token) → Prop} {P : σ → Option Token → Prop} (hfeed : Feed env K P)
    {fuel : Nat} {src : σ} {pos : SrcPos} {pc : PC σ} (hg : Good src) (hk : K src [])
    (h : parse env fuel src pos = .done (.ok pc)) : NothingLeft env.g pc.steps pc.delivered ∧ K pc.src pc.delivered := by
  obtain ⟨pc0, pc1, tok, b, h1, h2, h3⟩ := parse_split h
  have hst := pushNode_types (by intro n hn; simp at hn) h1
  have hne := pushNode_ne h1
  obtain ⟨m, stack, log, rfl⟩ := pushNode_spec h1
  obtain ⟨-, h5⟩ := outer_ok (tokens_inv env) (by rfl) hne h2
  obtain ⟨-, h6⟩ := outer_ok (ahead_inv hsafe (feed_and (pulled_feed hr) hfeed)) ⟨hst, ⟨hg, hk⟩, true, .nil, by simp⟩ hne h2
  obtain ⟨h0, h7⟩ := outer_ok (side_inv hsafe) (follows_nil rfl) hne h2
  have hlast := outer_last fuel (b := false) (tok := none) (by simp) h2
  have bad : ∀ t pc2, b = false → tok = some t → t.type ≠ eoiTokenType → putBack env pc1 tok b = .done pc2 → restLoop env fuel pc2 = .done (.ok pc) → False := by
    rintro t pc2 rfl rfl h9 h11 h12
    obtain ⟨-, -, h13⟩ := h6
    rw [follows_end h7.1 h0] at h13
    obtain ⟨h13, ⟨s0, types, h14, h15, h16, h17⟩, -⟩ := pending_none h13
    have hs : Solid env.g t := ⟨h17 t rfl, h9, h7.2 h0 t rfl⟩
    have h18 := hr.source h15 h14 h16 hs
    rw [putBack.eq_def] at h11
    simp only [Bool.false_eq_true, if_false, h9] at h11
    rw [if_neg (by cases hq : t.pos.src <;> simp [hq] at h18 ⊢)] at h11
    obtain ⟨src2, h19, h11⟩ := orPanic_done.mp h11
    cases h11
    exact restLoop_first (pc := { pc1 with src := src2 }) h13 (fun s u hu => hr.again h15 h14 h16 hs h19 hu) h12
  constructor
  · obtain ⟨rest, h8, h9 | h9 | ⟨t, rest', e1, e2, -, h9, h10, pc2, h11, h12⟩⟩ := finish_left hf hlast h5 h3
    · exact ⟨rest, h8, .inl h9⟩
    · exact ⟨rest, h8, .inr h9⟩
    · exact (bad t pc2 e1 e2 h9 h11 h12).elim
  · have hk1 : K pc1.src pc1.delivered := by
      cases b with
      | true => exact h6.2.1.2
      | false => exact h6.2.1.2
    rw [finish, bindRun_done] at h3
    obtain ⟨pc2, h4, h3⟩ := h3
    split at h3
    · rename_i hc
      cases b with
      | true =>
        rw [putBack.eq_def, if_pos rfl] at h4
        cases h4
        exact restLoop_kept hfeed fuel hk1 h3
      | false =>
        exfalso
        cases htok : tok with
        | none => rw [htok, putBack.eq_def] at h4; cases h4
        | some t => exact bad t pc2 rfl htok (fun he => hc.2 (by simp [htok, he])) h4 h3
    · rename_i hc
      cases h3
      have : tok.any (fun t => t.type = eoiTokenType) = true := by
        by_contra hn
        exact hc ⟨hf, hn⟩
      cases tok with
      | none => simp at this
      | some t =>
        simp only [Option.any_some, decide_eq_true_eq] at this
        rw [putBack.eq_def] at h4
        simp only [this, if_true, ite_self] at h4
        cases h4
        exact hk1

/-- Nothing is left when a parse with the option succeeds and tokens can be read again. -/
theorem parse_nothing_left {env : PEnv σ} {Good : σ → Prop} (hr : Rereads env Good) (hsafe : SafeLookahead env.g env.upper)
    (hf : env.fullSource = true) {fuel : Nat} {src : σ} {pos : SrcPos} {pc : PC σ} (hg : Good src)
    (h : parse env fuel src pos = .done (.ok pc)) : NothingLeft env.g pc.steps pc.delivered :=
  (parse_kept hr hsafe hf (pulled_feed hr) hg hg h).1

end Verif.Proof
