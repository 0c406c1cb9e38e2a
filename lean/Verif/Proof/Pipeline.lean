/-
Lemmas about the token pipeline.
-/
import Verif.Spec.Pipeline
import Verif.Proof.Parse
import Verif.Proof.LexerCalls

namespace Verif.Proof

open Verif.Model Verif.Spec
open Verif.Model.Tree (bindRun)

variable {η : Type}

/-! ### Peeking -/

theorem peekQueues_eq (qs : List (List Token)) (d : Nat) : peekQueues qs d = qs.flatten[d]? := by
  induction qs generalizing d with
  | nil => simp [peekQueues]
  | cons q qs ih =>
    rw [peekQueues, List.flatten_cons]
    split
    · rename_i h
      rw [List.getElem?_append_left h]
    · rename_i h
      rw [ih, List.getElem?_append_right (by omega)]

theorem call_rep {q : SrcQueue} {l : SrcList.State Src} (h : SrcQueue.Rep q l) (hl : l.length ≤ 2 ^ 31) (c : QueueCall) :
    ∃ q' l', c.run q = some q' ∧ SrcQueue.Rep q' l' ∧ l'.length ≤ l.length + 1 := by
  cases c with
  | append s =>
    cases s with
    | none => exact ⟨q, l, rfl, h, by omega⟩
    | some s =>
      obtain ⟨q', e, r⟩ := h.append s
      exact ⟨q', _, e, r, SrcQueue.append_length l s⟩
  | prepend s =>
    cases s with
    | none => exact ⟨q, l, rfl, h, by omega⟩
    | some s =>
      obtain ⟨q', e, r⟩ := h.prepend s
      exact ⟨q', _, e, r, SrcQueue.prepend_length l s⟩
  | skip n => exact ⟨_, _, rfl, h.skip n, by rw [SrcQueue.move_length]; omega⟩
  | rewind n => exact ⟨_, _, rfl, h.rewind n, by rw [SrcQueue.move_length]; omega⟩
  | seek n => exact ⟨_, _, rfl, h.seek n, by rw [SrcQueue.move_length]; omega⟩
  | next =>
    obtain ⟨q', e, r⟩ := h.next hl
    exact ⟨q', _, by simp [QueueCall.run, e], r, by simp; omega⟩

/-- Tokens are fetched from sources in the same way by the parser and by peeking. -/
def fetchAny (env : TEnv η) (fuel : Nat) (src : SrcQueue) : Run (SrcQueue × Except PErr (Option Token)) :=
  fetchToken env fuel src allTokenTypes

theorem run_fetched (env : TEnv η) (fuel : Nat) (qs : List (List Token)) (s : QSnapshot) (src : SrcQueue)
    {prog : HookProg η} (hp : NoCall prog) (tc : TC) (hs : tc.snap = some s) :
    ideal (fetchAny env fuel) prog [] tc.src src = bindRun (prog.run env fuel qs tc) (fun r => .done (src, r.2)) ∧
    ∀ r, prog.run env fuel qs tc = .done r → r.1.snap = some s := by
  induction hp generalizing tc with
  | ret st emit extra => exact ⟨rfl, fun r h => by cases h; exact hs⟩
  | fail st e => exact ⟨rfl, fun r h => by cases h; exact hs⟩
  | crash => exact ⟨rfl, fun r h => by cases h⟩
  | @peek k hk ih =>
    have hpk : peekToken env fuel qs tc =
        bindRun (fetchToken env fuel tc.src allTokenTypes) fun r => .done ({ tc with src := r.1 }, r.2) := by
      unfold peekToken
      simp [hs]
    have hfa : fetchAny env fuel tc.src = fetchToken env fuel tc.src allTokenTypes := rfl
    simp only [ideal, HookProg.run, hpk, hfa]
    cases hf : fetchToken env fuel tc.src allTokenTypes with
    | panic => exact ⟨rfl, fun r h => by cases h⟩
    | timeout => exact ⟨rfl, fun r h => by cases h⟩
    | done r =>
      simp only [bindRun]
      exact ih r.2 { tc with src := r.1 } hs
  | @read k hk ih =>
    simp only [ideal, HookProg.run]
    exact ih _ _ tc hs

/-- Results are the same and so are the sources. -/
def SameSources (a b : SrcQueue × η × Except PErr (Bool × List Token)) : Prop :=
  a.2 = b.2 ∧ ∃ l, SrcQueue.Rep a.1 l ∧ SrcQueue.Rep b.1 l

/-- A hook call together with restoring of sources. -/
def hookCall (env : TEnv η) (fuel : Nat) (qs : List (List Token)) (prog : HookProg η) (tc : TC) :
    Run (SrcQueue × η × Except PErr (Bool × List Token)) :=
  bindRun (prog.run env fuel qs tc) fun r => orPanic r.1.restore fun src => .done (src, r.2)

theorem hookCall_ideal (env : TEnv η) (fuel : Nat) (qs : List (List Token)) {prog : HookProg η} {calls pending : Nat}
    (hp : Polite calls pending prog) (tc : TC) (l : SrcList.State Src) (hr : SrcQueue.Rep tc.src l)
    (hl : l.length + calls ≤ 2 ^ 31) (hs : tc.snap = none) (hd : (qs.flatten.drop tc.distance).length = pending) :
    RunRel SameSources (hookCall env fuel qs prog tc)
      (ideal (fetchAny env fuel) prog (qs.flatten.drop tc.distance) tc.src tc.src) := by
  induction hp generalizing tc l with
  | ret st emit extra =>
    simp only [hookCall, HookProg.run, bindRun, TC.restore, hs, orPanic, ideal]
    exact ⟨rfl, l, hr, hr⟩
  | fail st e =>
    simp only [hookCall, HookProg.run, bindRun, TC.restore, hs, orPanic, ideal]
    exact ⟨rfl, l, hr, hr⟩
  | crash => exact trivial
  | @pending calls n k hk ih =>
    cases hq : qs.flatten.drop tc.distance with
    | nil => rw [hq] at hd; simp at hd
    | cons t rest =>
      have h1 : qs.flatten[tc.distance]? = some t := by
        have h : (qs.flatten.drop tc.distance)[0]? = some t := by rw [hq]; rfl
        simpa using h
      have h2 : qs.flatten.drop (tc.distance + 1) = rest := by
        rw [← List.drop_drop, hq]; rfl
      have hpk : peekToken env fuel qs tc = .done ({ tc with distance := tc.distance + 1 }, .ok (some t)) := by
        unfold peekToken
        simp [hs, peekQueues_eq, h1]
      have := ih (.ok (some t)) { tc with distance := tc.distance + 1 } l hr hl hs
        (by simp only [h2]; rw [hq] at hd; simpa using hd)
      simp only [ideal]
      simp only [hookCall, HookProg.run, hpk, bindRun]
      simp only [h2] at this
      exact this
  | @source calls k hk =>
    have hq : qs.flatten.drop tc.distance = [] := List.length_eq_zero_iff.1 hd
    have h1 : qs.flatten[tc.distance]? = none := by
      have h : (qs.flatten.drop tc.distance)[0]? = none := by rw [hq]; rfl
      simpa using h
    rw [hq]
    have hpk : peekToken env fuel qs tc = bindRun (fetchToken env fuel tc.src allTokenTypes) fun r =>
        .done ({ src := r.1, distance := tc.distance + 1, snap := some (SrcQueue.snapOf l) }, r.2) := by
      unfold peekToken
      simp [hs, peekQueues_eq, h1, hr.snapshot, orPanic]
    have hfa : fetchAny env fuel tc.src = fetchToken env fuel tc.src allTokenTypes := rfl
    simp only [hookCall, HookProg.run, ideal, hpk, hfa]
    cases hf : fetchToken env fuel tc.src allTokenTypes with
    | panic => exact trivial
    | timeout => exact trivial
    | done r =>
      simp only [bindRun]
      obtain ⟨he, hsn⟩ := run_fetched env fuel qs (SrcQueue.snapOf l) tc.src (hk r.2)
        { src := r.1, distance := tc.distance + 1, snap := some (SrcQueue.snapOf l) } rfl
      rw [he]
      cases hrun : (k r.2).run env fuel qs
        { src := r.1, distance := tc.distance + 1, snap := some (SrcQueue.snapOf l) } with
      | panic => exact trivial
      | timeout => exact trivial
      | done x =>
        simp only [bindRun, TC.restore, hsn x hrun]
        obtain ⟨q', e, rp⟩ := SrcQueue.restore_snapOf x.1.src l (by omega)
        simp only [e, orPanic]
        exact ⟨rfl, l, rp, hr⟩
  | @read calls n k hk ih =>
    simp only [hookCall, HookProg.run, ideal]
    exact ih _ _ tc l hr hl hs hd
  | @call calls n c k hk ih =>
    obtain ⟨q', l', e, r', hlen⟩ := call_rep hr (by omega) c
    simp only [hookCall, HookProg.run, ideal, e, orPanic]
    exact ih { tc with src := q' } l' r' (by omega) hs hd

/-! ### Queues holding the same sources -/

/-- Both queues hold the same sources. -/
def Alike (q q' : SrcQueue) : Prop := ∃ l, SrcQueue.Rep q l ∧ SrcQueue.Rep q' l ∧ l.length ≤ 2 ^ 31

theorem alike_source {q q' : SrcQueue} (h : Alike q q') : q.source = q'.source ∧ q.pos = q'.pos := by
  obtain ⟨l, h1, h2, _⟩ := h
  exact ⟨h1.source.trans h2.source.symm, h1.pos.trans h2.pos.symm⟩

theorem alike_next {q q' : SrcQueue} (h : Alike q q') :
    ∃ p p' b, q.nextSource = some (p, b) ∧ q'.nextSource = some (p', b) ∧ Alike p p' := by
  obtain ⟨l, h1, h2, hl⟩ := h
  obtain ⟨p, e, r⟩ := h1.next hl
  obtain ⟨p', e', r'⟩ := h2.next hl
  exact ⟨p, p', _, e, e', l.tail, r, r', by simp; omega⟩

theorem alike_skip {q q' : SrcQueue} (h : Alike q q') (n : Int) : Alike (q.skip n) (q'.skip n) := by
  obtain ⟨l, h1, h2, hl⟩ := h
  exact ⟨_, h1.skip n, h2.skip n, by rw [SrcQueue.move_length]; exact hl⟩

theorem alike_fetch {q q' : SrcQueue} (h : Alike q q') (l : Lexer) (tts : TokenTypeSet) :
    (l.fetch q tts = none ∧ l.fetch q' tts = none) ∨
      ∃ p p' r b, l.fetch q tts = some ((p, r), b) ∧ l.fetch q' tts = some ((p', r), b) ∧ Alike p p' := by
  obtain ⟨hs, hp⟩ := alike_source h
  unfold Lexer.fetch SrcQueue.contentPos
  rw [← hs, ← hp]
  cases hsrc : q.source with
  | none =>
    simp only
    split
    · exact .inr ⟨q, q', _, _, rfl, rfl, h⟩
    · exact .inl ⟨rfl, rfl⟩
  | some src =>
    simp only
    split
    · obtain ⟨p, p', b, e, e', ha⟩ := alike_next h
      rw [e, e']
      cases he : eofToken (some src) with
      | none => exact .inl ⟨rfl, rfl⟩
      | some t => exact .inr ⟨p, p', _, _, rfl, rfl, ha⟩
    · cases hm : l.matchToken src src.content q.pos tts with
      | none => exact .inl ⟨rfl, rfl⟩
      | some m =>
        cases m with
        | error e => exact .inr ⟨_, _, _, _, rfl, rfl, alike_skip h 0⟩
        | ok m => exact .inr ⟨_, _, _, _, rfl, rfl, alike_skip h m.2⟩

/-- Same results, queues holding the same sources. -/
def AlikeResult {α : Type} (a b : SrcQueue × α) : Prop := a.2 = b.2 ∧ Alike a.1 b.1

theorem alike_loop (l : Lexer) (tts : TokenTypeSet) (fuel : Nat) {q q' : SrcQueue} (h : Alike q q') :
    RunRel AlikeResult (l.nextOfLoop tts fuel q) (l.nextOfLoop tts fuel q') := by
  induction fuel generalizing q q' with
  | zero => exact trivial
  | succ fuel ih =>
    unfold Lexer.nextOfLoop
    rcases alike_fetch h l tts with ⟨e, e'⟩ | ⟨p, p', r, b, e, e', ha⟩
    · rw [e, e']
      exact trivial
    · rw [e, e']
      cases r with
      | error x => exact ⟨rfl, ha⟩
      | ok t =>
        cases t with
        | some t => exact ⟨rfl, ha⟩
        | none =>
          cases b with
          | true => simpa using ih ha
          | false => exact ⟨rfl, ha⟩

theorem alike_nextOf (l : Lexer) (tts : TokenTypeSet) (fuel : Nat) {q q' : SrcQueue} (h : Alike q q') :
    RunRel AlikeResult (l.nextOf fuel q tts) (l.nextOf fuel q' tts) := by
  unfold Lexer.nextOf
  split
  · exact ⟨rfl, h⟩
  · exact alike_loop l tts fuel h

theorem alike_fetchLoop (types : TokenTypeSet) (fuel : Nat) (ls : List Lexer) {q q' : SrcQueue} (h : Alike q q')
    (e : Option LlxError) : RunRel AlikeResult (fetchLoop types fuel ls q e) (fetchLoop types fuel ls q' e) := by
  induction ls generalizing q q' e with
  | nil =>
    unfold fetchLoop
    cases e with
    | none => exact ⟨rfl, h⟩
    | some e =>
      simp only
      split
      · exact ⟨rfl, h⟩
      · exact ⟨rfl, h⟩
  | cons l ls ih =>
    rw [fetchLoop, fetchLoop]
    have := alike_nextOf l types fuel h
    cases h1 : l.nextOf fuel q types with
    | panic => rw [h1] at this; cases h2 : l.nextOf fuel q' types <;> rw [h2] at this <;> trivial
    | timeout => rw [h1] at this; cases h2 : l.nextOf fuel q' types <;> rw [h2] at this <;> trivial
    | done r =>
      rw [h1] at this
      cases h2 : l.nextOf fuel q' types with
      | panic => rw [h2] at this; exact this.elim
      | timeout => rw [h2] at this; exact this.elim
      | done r' =>
        rw [h2] at this
        obtain ⟨p, r⟩ := r
        obtain ⟨p', r'⟩ := r'
        obtain ⟨he, ha⟩ := this
        simp only at he ha
        subst he
        simp only [bindRun]
        cases r with
        | error x => exact ih ha _
        | ok t =>
          cases t with
          | none => exact ih ha _
          | some t => exact ⟨rfl, ha⟩

/-! ### Layers -/

theorem appendExtra_ok {g : Grammar} : ∀ (extra q q' : List Token), appendExtra g q extra = .ok q' →
    q' = q ++ extra ∧ ∀ t ∈ extra, g.isValidType t.type = true := by
  intro extra
  induction extra with
  | nil =>
    intro q q' h
    cases h
    simp
  | cons t ts ih =>
    intro q q' h
    rw [appendExtra] at h
    split at h
    · rename_i hv
      obtain ⟨rfl, h2⟩ := ih _ _ h
      refine ⟨by simp, ?_⟩
      intro x hx
      rcases List.mem_cons.1 hx with rfl | hx
      · exact hv
      · exact h2 x hx
    · cases h

theorem pulls_append {env : TEnv η} {fuel : Nat} {layers : List (TokenLayer η)} {a b c : LState η}
    {l l' : List (TokenTypeSet × Option Token)} (h : Pulls env fuel layers a l b) (h' : Pulls env fuel layers b l' c) :
    Pulls env fuel layers a (l ++ l') c := by
  induction h with
  | nil => exact h'
  | change ps _ ih => exact .change ps (ih h')
  | pull hp _ ih => exact .pull hp (ih h')

/-- Tokens taken from the lower layers, what was done with them, and the tokens emitted. -/
structure Passed (env : TEnv η) (fuel : Nat) (hooks : TokenLayer η) (layers : List (TokenLayer η)) (q : List Token)
    (ls : LState η) (outs : List (Option Token)) (q' : List Token) (ls' : LState η)
    (ins : List (TokenTypeSet × Option Token)) (handled : List Handled) : Prop where
  pulls : Pulls env fuel layers ls ins ls'
  same : handled.map (·.token) = ins.map (·.2)
  by_layer : ∀ h ∈ handled, HandledBy env fuel hooks h
  valid : ∀ h ∈ handled, ∀ t ∈ h.extra, env.g.isValidType t.type = true
  out : q.map some ++ handled.flatMap Handled.out = outs ++ q'.map some

theorem hookLoop_passed {env : TEnv η} {fuel0 : Nat} {hooks : TokenLayer η} {layers : List (TokenLayer η)}
    {types : TokenTypeSet} {fuel : Nat} {ls ls' : LState η} {t : Option Token}
    (h : hookLoop env fuel0 hooks (pullToken env fuel0 types layers) fuel [] ls = .done (ls', .ok t)) :
    ∃ q' qs', ls'.queues = q' :: qs' ∧ ∃ ins handled,
      (∀ x ∈ ins, x.1 = types) ∧ Passed env fuel0 hooks layers [] ls [t] q' { ls' with queues := qs' } ins handled := by
  induction fuel generalizing ls with
  | zero => simp [hookLoop] at h
  | succ fuel ih =>
    rw [hookLoop] at h
    obtain ⟨⟨ls1, r1⟩, e1, h⟩ := bindRun_done.1 h
    cases r1 with
    | error e => cases h
    | ok result =>
      simp only at h
      obtain ⟨⟨ps, r2⟩, e2, h⟩ := bindRun_done.1 h
      cases r2 with
      | error e => cases h
      | ok r2 =>
        obtain ⟨emit, extra⟩ := r2
        simp only at h
        cases h3 : appendExtra env.g [] extra with
        | error e => rw [h3] at h; cases h
        | ok q =>
          rw [h3] at h
          simp only at h
          obtain ⟨hq, hv⟩ := appendExtra_ok _ _ _ h3
          simp only [List.nil_append] at hq
          subst hq
          have hby : HandledBy env fuel0 hooks ⟨result, emit, q⟩ := ⟨_, _, _, e2⟩
          cases emit with
          | true =>
            simp only [if_true] at h
            cases h
            refine ⟨q, _, rfl, [(types, t)], [⟨t, true, q⟩], by simp, ?_, rfl, ?_, ?_, ?_⟩
            · exact .pull e1 (.change ps (.nil _))
            · intro x hx; simp only [List.mem_singleton] at hx; subst hx; exact hby
            · intro x hx; simp only [List.mem_singleton] at hx; subst hx; exact hv
            · simp [Handled.out]
          | false =>
            simp only [Bool.false_eq_true, if_false] at h
            cases q with
            | cons t' q =>
              cases h
              refine ⟨q, _, rfl, [(types, result)], [⟨result, false, t' :: q⟩], by simp, ?_, rfl, ?_, ?_, ?_⟩
              · exact .pull e1 (.change ps (.nil _))
              · intro x hx; simp only [List.mem_singleton] at hx; subst hx; exact hby
              · intro x hx; simp only [List.mem_singleton] at hx; subst hx; exact hv
              · simp [Handled.out]
            | nil =>
              simp only at h
              obtain ⟨q', qs', hqs, ins, handled, ht, hp⟩ := ih h
              refine ⟨q', qs', hqs, (types, result) :: ins, ⟨result, false, []⟩ :: handled, ?_, ?_, ?_, ?_, ?_, ?_⟩
              · intro x hx
                rcases List.mem_cons.1 hx with rfl | hx
                · rfl
                · exact ht x hx
              · exact .pull e1 (.change ps hp.pulls)
              · simp [hp.same]
              · intro x hx
                rcases List.mem_cons.1 hx with rfl | hx
                · exact hby
                · exact hp.by_layer x hx
              · intro x hx
                rcases List.mem_cons.1 hx with rfl | hx
                · simp
                · exact hp.valid x hx
              · simpa [Handled.out] using hp.out

theorem pull_passed {env : TEnv η} {fuel : Nat} {hooks : TokenLayer η} {layers : List (TokenLayer η)}
    {types : TokenTypeSet} {q : List Token} {ls ls' : LState η} {qs : List (List Token)} {t : Option Token}
    (hq : ls.queues = q :: qs)
    (h : pullToken env fuel types (hooks :: layers) ls = .done (ls', .ok t)) :
    ∃ q' qs', ls'.queues = q' :: qs' ∧ ∃ ins handled,
      Passed env fuel hooks layers q { ls with queues := qs } [t] q' { ls' with queues := qs' } ins handled := by
  rw [pullToken, hq] at h
  cases q with
  | cons t' q =>
    simp only at h
    cases h
    exact ⟨q, qs, rfl, [], [], .nil _, rfl, by simp, by simp, by simp⟩
  | nil =>
    simp only at h
    obtain ⟨q', qs', h1, ins, handled, _, hp⟩ := hookLoop_passed h
    exact ⟨q', qs', h1, ins, handled, hp⟩

theorem pulls_passed {env : TEnv η} {fuel : Nat} {hooks : TokenLayer η} {layers : List (TokenLayer η)}
    {ls ls' : LState η} {outs : List (TokenTypeSet × Option Token)}
    (h : Pulls env fuel (hooks :: layers) ls outs ls') {q : List Token} {qs : List (List Token)} (hq : ls.queues = q :: qs) :
    ∃ q' qs', ls'.queues = q' :: qs' ∧ ∃ ins handled,
      Passed env fuel hooks layers q { ls with queues := qs } (outs.map (·.2)) q' { ls' with queues := qs' } ins handled := by
  induction h generalizing q qs with
  | nil ls => exact ⟨q, qs, hq, [], [], .nil _, rfl, by simp, by simp, by simp⟩
  | @change ls ls' l ps _ ih =>
    obtain ⟨q', qs', h1, ins, handled, hp⟩ := ih (q := q) (qs := qs) hq
    exact ⟨q', qs', h1, ins, handled, .change ps hp.pulls, hp.same, hp.by_layer, hp.valid, hp.out⟩
  | @pull ls ls1 ls' l types t hpull _ ih =>
    obtain ⟨q1, qs1, h1, ins, handled, hp⟩ := pull_passed hq hpull
    obtain ⟨q', qs', h2, ins2, handled2, hp2⟩ := ih h1
    refine ⟨q', qs', h2, ins ++ ins2, handled ++ handled2, pulls_append hp.pulls hp2.pulls, ?_, ?_, ?_, ?_⟩
    · simp [hp.same, hp2.same]
    · intro x hx
      rcases List.mem_append.1 hx with hx | hx
      · exact hp.by_layer x hx
      · exact hp2.by_layer x hx
    · intro x hx
      rcases List.mem_append.1 hx with hx | hx
      · exact hp.valid x hx
      · exact hp2.valid x hx
    · have a := hp.out
      have b := hp2.out
      rw [List.flatMap_append, ← List.append_assoc, a, List.append_assoc, b]
      simp

end Verif.Proof
