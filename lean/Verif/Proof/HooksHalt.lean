/-
Token hooks that add finitely many tokens: fetching of tokens stops, and there are finitely many tokens.
-/
import Verif.Proof.SupplyHalts
import Verif.Proof.Pipeline
import Verif.Spec.HookLimits

namespace Verif.Proof

open Verif Verif.Model Verif.Model.Lexer Verif.Spec Verif.Spec.Lex
open Verif.Model.Tree (bindRun)

variable {η : Type}

/-- Sources are not longer than those in `l`. -/
def Shorter (l : SrcList.State Src) (q : SrcQueue) : Prop := ∃ l', Holds q l' ∧ l'.length ≤ l.length ∧ unread l' ≤ unread l

theorem Shorter.refl {l : SrcList.State Src} {q : SrcQueue} (h : Holds q l) : Shorter l q := ⟨l, h, le_refl _, le_refl _⟩

/-- Sources while a hook is working. -/
def TCShorter (l : SrcList.State Src) (tc : TC) : Prop :=
  match tc.snap with
  | none => Shorter l tc.src
  | some s => (∃ l', Holds tc.src l') ∧ ∃ q', ∃ l', Holds q' l' ∧ l'.length ≤ l.length ∧ unread l' ≤ unread l ∧ s = SrcQueue.snapOf l'

theorem unread_skip (n : Int) (l : SrcList.State Src) :
    unread (SrcList.move (fun c p => if n ≤ 0 then p else min (p + n.toNat) c.len) l) ≤ unread l := by
  cases l with
  | nil => exact le_refl _
  | cons x rest =>
    obtain ⟨c, p⟩ := x
    simp only [SrcList.move, unread, Src.len]
    split <;> omega

theorem unread_tail (l : SrcList.State Src) : unread l.tail ≤ unread l := by
  cases l with
  | nil => exact le_refl _
  | cons x rest => obtain ⟨c, p⟩ := x; simp only [List.tail_cons, unread]; omega

theorem forward_shorter {q : SrcQueue} {l : SrcList.State Src} (h : Holds q l) {c : QueueCall} (hc : Forward c) {q' : SrcQueue}
    (he : c.run q = some q') : Shorter l q' := by
  cases c with
  | skip n =>
    cases he
    refine ⟨_, ⟨h.rep.skip n, h.ok.move _ ?_, ?_⟩, ?_, unread_skip n l⟩
    · intro c p hp; split <;> omega
    · rw [SrcQueue.move_length]; exact h.size
    · rw [SrcQueue.move_length]
  | next =>
    obtain ⟨q1, e, r⟩ := h.rep.next h.size
    simp only [QueueCall.run, e, Option.map_some, Option.some.injEq] at he
    subst he
    exact ⟨_, ⟨r, h.ok.next, by have := h.size; simp; omega⟩, by simp, unread_tail l⟩
  | append s => exact hc.elim
  | prepend s => exact hc.elim
  | rewind n => exact hc.elim
  | seek n => exact hc.elim

theorem Shorter.trans {l : SrcList.State Src} {q : SrcQueue} {l' : SrcList.State Src} (h : Shorter l' q) (h1 : l'.length ≤ l.length)
    (h2 : unread l' ≤ unread l) : Shorter l q := by
  obtain ⟨l2, a, b, c⟩ := h
  exact ⟨l2, a, by omega, by omega⟩

theorem fetch_halts {env : TEnv η} (hls : LexersOk env.lexers) (tts : TokenTypeSet) {q : SrcQueue} {l : SrcList.State Src} (h : Holds q l) :
    Halts (fun k _ => fetchToken env k q tts) (fun r => Shorter l r.1) := by
  obtain ⟨q', l', res, N, h1, h2, h3, h4, h5⟩ := fetchLoop_supply tts hls q l h none
  exact ⟨.done (q', res), ⟨N, fun k _ hk _ => h1 k hk⟩, by simp, fun a ha => by cases ha; exact ⟨l', h2, h3, h4⟩⟩

theorem peek_halts {env : TEnv η} (hls : LexersOk env.lexers) (qs : List (List Token)) {tc : TC} {l : SrcList.State Src}
    (h : TCShorter l tc) : Halts (fun k _ => peekToken env k qs tc) (fun r => TCShorter l r.1) := by
  cases hs : tc.snap with
  | some s =>
    rw [TCShorter, hs] at h
    obtain ⟨⟨l1, h1⟩, q', l', h2⟩ := h
    refine .congr (g := fun k _ => bindRun (fetchToken env k tc.src allTokenTypes) fun r => .done ({ tc with src := r.1 }, r.2))
      (fun k n => by unfold peekToken; simp [hs]) ?_
    refine .bind (fetch_halts hls _ h1) ?_
    rintro ⟨q2, res⟩ ⟨l2, h3, -, -⟩
    refine .done ?_
    simp only [TCShorter, hs]
    exact ⟨⟨l2, h3⟩, q', l', h2⟩
  | none =>
    rw [TCShorter, hs] at h
    cases hp : peekQueues qs tc.distance with
    | some t =>
      refine .congr (g := fun _ _ => .done ({ tc with distance := tc.distance + 1 }, .ok (some t)))
        (fun k n => by unfold peekToken; simp [hs, hp]) ?_
      refine .done ?_
      simp only [TCShorter, hs]
      exact h
    | none =>
      obtain ⟨l', h1, h2, h3⟩ := h
      refine .congr (g := fun k _ => bindRun (fetchToken env k tc.src allTokenTypes) fun r =>
        .done ({ src := r.1, distance := tc.distance + 1, snap := some (SrcQueue.snapOf l') }, r.2))
        (fun k n => by unfold peekToken; simp [hs, hp, h1.rep.snapshot, orPanic]) ?_
      refine .bind (fetch_halts hls _ h1) ?_
      rintro ⟨q2, res⟩ ⟨l2, h4, -, -⟩
      refine .done ?_
      exact ⟨⟨l2, h4⟩, tc.src, l', h1, h2, h3, rfl⟩

theorem call_shorter {tc : TC} {l : SrcList.State Src} (h : TCShorter l tc) {c : QueueCall} (hc : Forward c) {q' : SrcQueue}
    (he : c.run tc.src = some q') : TCShorter l { tc with src := q' } := by
  cases hs : tc.snap with
  | some s =>
    rw [TCShorter, hs] at h
    obtain ⟨⟨l1, h1⟩, h2⟩ := h
    obtain ⟨l2, h3, -⟩ := forward_shorter h1 hc he
    simp only [TCShorter, hs]
    exact ⟨⟨l2, h3⟩, h2⟩
  | none =>
    rw [TCShorter, hs] at h
    obtain ⟨l1, h1, h2, h3⟩ := h
    simp only [TCShorter, hs]
    exact (forward_shorter h1 hc he).trans h2 h3

theorem restore_shorter {tc : TC} {l : SrcList.State Src} (h : TCShorter l tc) {q : SrcQueue} (he : tc.restore = some q) : Shorter l q := by
  unfold TC.restore at he
  cases hs : tc.snap with
  | none =>
    rw [TCShorter, hs] at h
    rw [hs] at he
    cases he
    exact h
  | some s =>
    rw [TCShorter, hs] at h
    obtain ⟨-, q1, l', h1, h2, h3, rfl⟩ := h
    rw [hs] at he
    obtain ⟨q2, e, r⟩ := SrcQueue.restore_snapOf tc.src l' (by have := h1.size; omega)
    dsimp only at he; rw [e] at he
    cases he
    exact ⟨l', ⟨r, h1.ok, h1.size⟩, h2, h3⟩

/-- What the hook gives, if the conditions are `ret` and `fail`. -/
def HookGave (ret : η → Bool → List Token → Prop) (fail : η → Prop) (st : η) : Except PErr (Bool × List Token) → Prop
  | .ok x => ret st x.1 x.2
  | .error _ => fail st

theorem run_halts {env : TEnv η} (hls : LexersOk env.lexers) (qs : List (List Token)) {ret : η → Bool → List Token → Prop} {fail : η → Prop}
    {l : SrcList.State Src} (prog : HookProg η) : Sure (fun _ => True) ret fail Forward True prog → ∀ tc : TC, TCShorter l tc →
    Halts (fun k _ => prog.run env k qs tc) (fun r => TCShorter l r.1 ∧ HookGave ret fail r.2.1 r.2.2) := by
  induction prog with
  | ret st emit extra => exact fun h tc htc => .done ⟨htc, h⟩
  | fail st e => exact fun h tc htc => .done ⟨htc, h⟩
  | crash => exact fun h tc htc => .panic
  | peek k ih =>
    intro h tc htc
    refine .congr (g := fun f _ => bindRun (peekToken env f qs tc) fun r => (k r.2).run env f qs r.1) (fun _ _ => rfl) ?_
    refine .bind (peek_halts hls qs htc) ?_
    rintro ⟨tc', res⟩ htc'
    exact ih res (h res trivial) tc' htc'
  | read k ih => exact fun h tc htc => ih _ _ (h _ _) tc htc
  | call c k ih =>
    intro h tc htc
    refine .congr (g := fun f _ => orPanic (c.run tc.src) fun src => k.run env f qs { tc with src := src }) (fun _ _ => rfl) ?_
    refine .orPanic fun q' hq => ?_
    exact ih h.2 _ (call_shorter htc h.1 hq)

theorem pick_mem {env : TEnv η} {hooks : TokenLayer η} {tok : Token} {h : TokenHook η} (hp : pickHook env hooks tok = some (some h)) :
    ∃ j : Nat, hooks[j]? = some (some h) ∧ (tok.type = eoiTokenType ↔ j = 0) := by
  have get : ∀ i : Int, (tok.type = -3 ↔ i = -3) → Go.index hooks (i + 3) = some (some h) → ∃ j : Nat, hooks[j]? = some (some h) ∧ (tok.type = -3 ↔ j = 0) := by
    intro i hi hx
    unfold Go.index at hx
    split at hx
    · rename_i hr
      exact ⟨(i + 3).toNat, hx, by rw [hi]; omega⟩
    · cases hx
  have first : ∀ is : List Int, (∀ i ∈ is, tok.type = -3 ↔ i = -3) → List.foldr (fun i rest => (Go.index hooks (i + 3)).bind fun h => match h with
      | some h => some (some h)
      | none => rest) (some none) is = some (some h) → ∃ j : Nat, hooks[j]? = some (some h) ∧ (tok.type = -3 ↔ j = 0) := by
    intro is
    induction is with
    | nil => intro _ hi; cases hi
    | cons i is ih =>
      intro hall hi
      rw [List.foldr_cons] at hi
      cases hg : Go.index hooks (i + 3) with
      | none => rw [hg] at hi; cases hi
      | some x =>
        rw [hg] at hi
        cases x with
        | none => exact ih (fun i h => hall i (by simp [h])) hi
        | some h' => cases hi; exact get i (hall i (by simp)) hg
  unfold pickHook at hp
  dsimp only at hp
  split at hp
  · exact first _ (by simp) hp
  · rename_i hneg
    obtain ⟨t, -, hp⟩ := Option.bind_eq_some_iff.mp hp
    refine first _ ?_ hp
    intro i hi
    have h0 : -1 ≤ i := by
      rw [List.mem_append, List.mem_append] at hi
      rcases hi with (hi | hi) | hi
      · split at hi
        · cases hi
        · split at hi
          · split at hi
            · rw [List.mem_singleton.mp hi]; omega
            · cases hi
          · cases hi
      · split at hi
        · rw [List.mem_singleton.mp hi]; omega
        · cases hi
      · rw [List.mem_singleton.mp hi]
    constructor
    · omega
    · omega

theorem pick_eoi {env : TEnv η} {hooks : TokenLayer η} {t : Token} (ht : t.type = eoiTokenType) (hp : pickHook env hooks t = some none) :
    hooks[0]? = some none := by
  unfold pickHook at hp
  have hneg : t.type < 0 := by rw [ht]; decide
  dsimp only at hp
  rw [if_pos hneg, ht, List.foldr_cons] at hp
  have e : (eoiTokenType : Int) + 3 = 0 := by decide
  rw [e] at hp
  cases hooks with
  | nil => cases hp
  | cons h hooks =>
    have e : Go.index (h :: hooks) 0 = some h := by
      unfold Go.index
      rw [if_pos (by simp)]
      rfl
    rw [e] at hp
    cases h with
    | none => rfl
    | some h => cases hp

theorem pick_busy {env : TEnv η} {hooks : TokenLayer η} {t : Token} (ht : t.type = eoiTokenType) {h : TokenHook η}
    (hp : pickHook env hooks t = some (some h)) : ¬ hooks[0]? = some none := by
  unfold pickHook at hp
  have hneg : t.type < 0 := by rw [ht]; decide
  dsimp only at hp
  rw [if_pos hneg, ht, List.foldr_cons] at hp
  have e : (eoiTokenType : Int) + 3 = 0 := by decide
  rw [e] at hp
  cases hooks with
  | nil => simp
  | cons h hooks =>
    have e : Go.index (h :: hooks) 0 = some h := by
      unfold Go.index
      rw [if_pos (by simp)]
      rfl
    rw [e] at hp
    cases h with
    | none => cases hp
    | some h => simp

/-- Tokens and variables after `handleToken`; `idle` means that the layer has no hook for the end of input. -/
def HookDone (φ : Nat → η → Nat) (K i : Nat) (idle : Prop) (st : η) (tok : Option Token) (st' : η) (r : Except PErr (Bool × List Token)) : Prop :=
  OthersOwe φ i st st' ∧
  match tok with
  | none => φ i st' = φ i st ∧ r = .ok (true, [])
  | some t =>
    if t.type = eoiTokenType then
      match r with
      | .ok x => (φ i st' = 0 ∨ idle) ∧ ∃ xs es, x.2 = xs ++ es ∧ (∀ x ∈ xs, x.type ≠ eoiTokenType) ∧
        (∀ x ∈ es, x.type = eoiTokenType) ∧ xs.length ≤ φ i st ∧ (x.1 = true → xs = []) ∧ (x.1 = false → es ≠ [])
      | .error _ => φ i st' ≤ φ i st
    else
      match r with
      | .ok x => x.2.length + φ i st' ≤ φ i st + K + (if x.1 = true ∨ x.2 = [] then 0 else 1) ∧ ∀ y ∈ x.2, y.type ≠ eoiTokenType
      | .error _ => φ i st' ≤ φ i st + K

/-- The layer does nothing when it has no hook for the token. -/
theorem hookDone_pass {φ : Nat → η → Nat} {K i : Nat} {st : η} {tok : Option Token} {idle : Prop} (h0 : ∀ t, tok = some t → t.type = eoiTokenType → idle) :
    HookDone φ K i idle st tok st (.ok (true, [])) := by
  refine ⟨fun j _ => le_refl _, ?_⟩
  cases tok with
  | none => exact ⟨rfl, rfl⟩
  | some t =>
    dsimp only
    by_cases ht : t.type = eoiTokenType
    · rw [if_pos ht]
      exact ⟨.inr (h0 t rfl ht), [], [], rfl, by simp, by simp, by simp, by simp, by simp⟩
    · rw [if_neg ht]
      exact ⟨by simp, by simp⟩

theorem hookDone_eoi {φ : Nat → η → Nat} {K i : Nat} {st st' : η} {t : Token} {e : Bool} {extra : List Token} {idle : Prop} (ho : OthersOwe φ i st st')
    (ht : t.type = eoiTokenType) (h1 : φ i st' = 0) (h2 : ∃ xs es, extra = xs ++ es ∧ (∀ x ∈ xs, x.type ≠ eoiTokenType) ∧
      (∀ x ∈ es, x.type = eoiTokenType) ∧ xs.length ≤ φ i st ∧ (e = true → xs = [])) :
    HookDone φ K i idle st (some t) st' (.ok (if ¬ e ∧ t.type < 0 then if extra.isEmpty then (true, extra) else (e, extra ++ [t]) else (e, extra))) := by
  refine ⟨ho, ?_⟩
  dsimp only
  rw [if_pos ht]
  have hneg : t.type < 0 := by rw [ht]; decide
  obtain ⟨xs, es, rfl, h3, h4, h5, h6⟩ := h2
  refine ⟨.inl h1, ?_⟩
  cases e with
  | true => exact ⟨xs, es, by simp, h3, h4, h5, fun _ => h6 rfl, by simp⟩
  | false =>
    cases hx : (xs ++ es).isEmpty with
    | true =>
      have hnil : xs ++ es = [] := by simpa using hx
      have h7 := List.append_eq_nil_iff.mp hnil
      refine ⟨[], [], ?_, by simp, by simp, by simp, by simp, ?_⟩
      · simp [hneg, h7.1, h7.2]
      · simp [hneg, h7.1, h7.2]
    | false =>
      refine ⟨xs, es ++ [t], ?_, h3, ?_, h5, ?_, ?_⟩
      · simp [hneg]
      · intro x hx
        rcases List.mem_append.mp hx with hx | hx
        · exact h4 x hx
        · rw [List.mem_singleton.mp hx]; exact ht
      · simp [hneg]
      · simp

theorem hookDone_other {φ : Nat → η → Nat} {K i : Nat} {st st' : η} {t : Token} {e : Bool} {extra : List Token} {idle : Prop} (ho : OthersOwe φ i st st')
    (ht : t.type ≠ eoiTokenType) (h1 : extra.length + φ i st' ≤ φ i st + K) (h2 : ∀ x ∈ extra, x.type ≠ eoiTokenType) :
    HookDone φ K i idle st (some t) st' (.ok (if ¬ e ∧ t.type < 0 then if extra.isEmpty then (true, extra) else (e, extra ++ [t]) else (e, extra))) := by
  refine ⟨ho, ?_⟩
  dsimp only
  rw [if_neg ht]
  by_cases hc : ¬ e = true ∧ t.type < 0
  · rw [if_pos hc]
    cases hx : extra.isEmpty with
    | true => exact ⟨by simp; omega, by simpa using h2⟩
    | false =>
      have he : e = false := by simpa using hc.1
      refine ⟨?_, ?_⟩
      · simp [he]; omega
      · intro x hx
        rcases List.mem_append.mp hx with hx | hx
        · exact h2 x hx
        · rw [List.mem_singleton.mp hx]; exact ht
  · rw [if_neg hc]
    exact ⟨by dsimp only; omega, h2⟩

theorem handle_halts {env : TEnv η} (hls : LexersOk env.lexers) {φ : Nat → η → Nat} {K i : Nat} {hooks : TokenLayer η}
    (hb : ∀ (j : Nat) h, hooks[j]? = some (some h) → HookBound φ K i (j = 0) h) (qs : List (List Token)) (ps : PState η) {l : SrcList.State Src} (hl : Holds ps.src l)
    (tok : Option Token) :
    Halts (fun k _ => handleToken env k hooks qs ps tok) (fun r => Shorter l r.1.src ∧ HookDone φ K i (hooks[0]? = some none) ps.st tok r.1.st r.2 ∧
      ∀ t, tok = some t → t.type = eoiTokenType → hooks[0]? = some none → r.2 = .ok (true, [])) := by
  cases tok with
  | none => exact .done ⟨.refl hl, hookDone_pass (by simp), by simp⟩
  | some t =>
    refine .congr (g := fun k n => orPanic (pickHook env hooks t) fun hook =>
      match hook with
      | none => .done (ps, .ok (true, []))
      | some hook =>
        bindRun ((hook ps.st t).run env k qs { src := ps.src }) fun r =>
          orPanic r.1.restore fun src =>
            .done ({ src := src, st := r.2.1 }, r.2.2.map fun x =>
              if ¬ x.1 ∧ t.type < 0 then
                if x.2.isEmpty then (true, x.2) else (x.1, x.2 ++ [t])
              else x)) (fun _ _ => rfl) ?_
    refine .orPanic fun hook hp => ?_
    cases hook with
    | none => exact .done ⟨.refl hl, hookDone_pass fun t' ht h => by cases ht; exact pick_eoi h hp, fun _ _ _ _ => rfl⟩
    | some hook =>
      dsimp only
      obtain ⟨j, hj, hj0⟩ := pick_mem hp
      refine .bind (run_halts (l := l) hls qs _ (hb j hook hj ps.st t hj0) { src := ps.src } (Shorter.refl hl)) ?_
      rintro ⟨tc, st', res⟩ ⟨htc, hg⟩
      refine .orPanic fun q hq => ?_
      refine .done ⟨restore_shorter htc hq, ?_, fun t' ht h1 h2 => by cases ht; exact absurd h2 (pick_busy h1 hp)⟩
      cases res with
      | error e =>
        refine ⟨hg.1, ?_⟩
        have h2 := hg.2
        dsimp only [Except.map]
        by_cases ht : t.type = eoiTokenType
        · rw [if_pos ht] at h2 ⊢; exact h2
        · rw [if_neg ht] at h2 ⊢; exact h2
      | ok x =>
        obtain ⟨e, extra⟩ := x
        obtain ⟨ho, hg⟩ := hg
        dsimp only [Except.map] at hg ⊢
        by_cases ht : t.type = eoiTokenType
        · rw [if_pos ht] at hg
          exact hookDone_eoi ho ht hg.1 hg.2
        · rw [if_neg ht] at hg
          exact hookDone_other ho ht hg.1 hg.2

open Classical in
/-- Tokens owed by the layer; a layer without a hook for the end of input gives nothing at the end. -/
noncomputable def owed (φ : Nat → η → Nat) (hooks : TokenLayer η) (i : Nat) (st : η) (n0 : Nat) : Nat :=
  if n0 = 0 ∧ hooks[0]? = some none then 0 else φ i st

theorem owed_le {φ : Nat → η → Nat} {hooks : TokenLayer η} {i : Nat} {st st' : η} {n0 n0' : Nat} (h : φ i st' ≤ φ i st) (hn : n0' ≤ n0) :
    owed φ hooks i st' n0' ≤ owed φ hooks i st n0 := by
  unfold owed
  split
  · omega
  · split
    · rename_i h1 h2
      exact absurd ⟨by omega, h2.2⟩ h1
    · exact h

theorem owed_zero {φ : Nat → η → Nat} {hooks : TokenLayer η} {i : Nat} {st : η} (h : φ i st = 0 ∨ hooks[0]? = some none) : owed φ hooks i st 0 = 0 := by
  unfold owed
  split
  · rfl
  · rename_i h1
    rcases h with h | h
    · exact h
    · exact absurd ⟨rfl, h⟩ h1

theorem owed_pos {φ : Nat → η → Nat} {hooks : TokenLayer η} {i : Nat} {st : η} {n0 : Nat} (h : 0 < n0) : owed φ hooks i st n0 = φ i st := by
  unfold owed
  rw [if_neg (by omega)]

theorem owed_le_self {φ : Nat → η → Nat} {hooks : TokenLayer η} {i : Nat} {st : η} {n0 : Nat} : owed φ hooks i st n0 ≤ φ i st := by
  unfold owed
  split <;> omega

theorem rep_unique {q : SrcQueue} {l l' : SrcList.State Src} (h : SrcQueue.Rep q l) (h' : SrcQueue.Rep q l') : l = l' := by
  have hi : ∀ {a b : SrcList.State Src}, SrcQueue.itemsOf a = SrcQueue.itemsOf b → a = b := by
    intro a b hab
    refine List.map_injective_iff.mpr ?_ hab
    rintro ⟨s, p⟩ ⟨s', p'⟩ he
    simpa using he
  have h1 : SrcQueue.itemsOf l.tail = SrcQueue.itemsOf l'.tail := Option.some.inj (h.rest.getItems_eq.symm.trans h'.rest.getItems_eq)
  have h2 := hi h1
  have h3 := h.source.symm.trans h'.source
  have h4 := h.pos.symm.trans h'.pos
  rcases l with _ | ⟨⟨s, p⟩, l⟩ <;> rcases l' with _ | ⟨⟨s', p'⟩, l'⟩
  · rfl
  · simp at h3
  · simp at h3
  · simp at h2 h3 h4
    rw [h2, h3, h4]

/-- At most `n` tokens are left: in queues of layers, owed by hooks, in sources (at most `B` of them). -/
def HooksLeft (φ : Nat → η → Nat) (K B : Nat) : List (TokenLayer η) → LState η → Nat → Prop
  | [], ls, n => SourcesLeft B ls n
  | hooks :: rest, ls, n => ∃ xs es qs n0, ls.queues = (xs ++ es) :: qs ∧ (∀ x ∈ xs, x.type ≠ eoiTokenType) ∧
      (∀ x ∈ es, x.type = eoiTokenType) ∧ HooksLeft φ K B rest { ls with queues := qs } n0 ∧
      (es ≠ [] → n0 = 0 ∧ owed φ hooks rest.length ls.ps.st 0 = 0) ∧
      n = xs.length + owed φ hooks rest.length ls.ps.st n0 + n0 * (K + 1)

/-- Hooks may drop parts of sources and what they owe. -/
theorem HooksLeft.less {φ : Nat → η → Nat} {K B : Nat} {layers : List (TokenLayer η)} {ls : LState η} {n : Nat} (h : HooksLeft φ K B layers ls n)
    {l : SrcList.State Src} (hl : Holds ls.ps.src l) {ps' : PState η} (hs : Shorter l ps'.src)
    (ho : ∀ j < layers.length, φ j ps'.st ≤ φ j ls.ps.st) : ∃ n' ≤ n, HooksLeft φ K B layers { ls with ps := ps' } n' := by
  induction layers generalizing ls n with
  | nil =>
    obtain ⟨l0, h1, h2, rfl⟩ := h
    obtain ⟨l', h3, h4, h5⟩ := hs
    have : l = l0 := rep_unique hl.rep h1.rep
    subst this
    exact ⟨unread l', h5, l', h3, by omega, rfl⟩
  | cons hooks rest ih =>
    obtain ⟨xs, es, qs, n0, h1, h2, h3, h4, h5, rfl⟩ := h
    obtain ⟨n0', h6, h7⟩ := ih (ls := { ls with queues := qs }) h4 hl (fun j hj => ho j (by simp; omega))
    have ho' := ho rest.length (by simp)
    have hle := owed_le (hooks := hooks) ho' h6
    refine ⟨_, ?_, xs, es, qs, n0', h1, h2, h3, h7, ?_, rfl⟩
    · have := Nat.mul_le_mul_right (K + 1) h6
      dsimp only
      omega
    · intro hne
      obtain ⟨a, b⟩ := h5 hne
      have := owed_le (hooks := hooks) ho' (le_refl 0)
      exact ⟨by omega, by dsimp only at this ⊢; omega⟩

theorem HooksLeft.holds {φ : Nat → η → Nat} {K B : Nat} {layers : List (TokenLayer η)} {ls : LState η} {n : Nat} (h : HooksLeft φ K B layers ls n) :
    ∃ l, Holds ls.ps.src l ∧ l.length ≤ B := by
  induction layers generalizing ls n with
  | nil => obtain ⟨l, h1, h2, -⟩ := h; exact ⟨l, h1, h2⟩
  | cons hooks rest ih =>
    obtain ⟨xs, es, qs, n0, h1, h2, h3, h4, h5, rfl⟩ := h
    exact ih (ls := { ls with queues := qs }) h4

theorem Halts.diag {α : Type} {f : Nat → Nat → Run α} {P : α → Prop} (h : Halts f P) : Halts (fun k _ => f k k) P := by
  obtain ⟨r, ⟨N, h1⟩, h2⟩ := h
  exact ⟨r, ⟨N, fun k _ hk _ => h1 k k hk hk⟩, h2⟩

theorem takeWhile_parts {p : Token → Bool} {xs es : List Token} (hx : ∀ x ∈ xs, x.type ≠ eoiTokenType) (he : ∀ x ∈ es, x.type = eoiTokenType) :
    ∃ xs' es', (xs ++ es).takeWhile p = xs' ++ es' ∧ (∀ x ∈ xs', x.type ≠ eoiTokenType) ∧ (∀ x ∈ es', x.type = eoiTokenType) ∧
      xs'.length ≤ xs.length := by
  rw [List.takeWhile_append]
  split
  · exact ⟨xs, es.takeWhile p, rfl, hx, fun x h => he x ((List.takeWhile_prefix p).subset h), le_refl _⟩
  · exact ⟨xs.takeWhile p, [], by simp, fun x h => hx x ((List.takeWhile_prefix p).subset h), by simp, (List.takeWhile_prefix p).length_le⟩

section
variable {env : TEnv η} {φ : Nat → η → Nat} {K B : Nat}

theorem fedAfter_other {σ : Type} {I : σ → Nat → Prop} {n : Nat} {t : Token} {src : σ} (ht : t.type ≠ eoiTokenType) (h : ∃ n' < n, I src n') :
    FedAfter I n (.ok (some t)) src := by
  unfold FedAfter
  dsimp only
  rw [if_neg (show ¬ t.type = -3 from ht)]
  exact h

theorem fedAfter_end {σ : Type} {I : σ → Nat → Prop} {n : Nat} {t : Token} {src : σ} (ht : t.type = eoiTokenType) (h : I src 0) :
    FedAfter I n (.ok (some t)) src := by
  unfold FedAfter
  dsimp only
  rw [if_pos (show t.type = -3 from ht)]
  exact h

/-- State of a layer with tokens in its queue. -/
theorem HooksLeft.queue {hooks : TokenLayer η} {rest : List (TokenLayer η)} {ls : LState η} {n0 : Nat} (h : HooksLeft φ K B rest ls n0)
    {xs es : List Token} (hx : ∀ x ∈ xs, x.type ≠ eoiTokenType) (he : ∀ x ∈ es, x.type = eoiTokenType)
    (hz : es ≠ [] → n0 = 0 ∧ owed φ hooks rest.length ls.ps.st 0 = 0) :
    HooksLeft φ K B (hooks :: rest) { queues := (xs ++ es) :: ls.queues, ps := ls.ps } (xs.length + owed φ hooks rest.length ls.ps.st n0 + n0 * (K + 1)) :=
  ⟨xs, es, ls.queues, n0, rfl, hx, he, h, hz, rfl⟩

theorem mul_lt {n0 n2 K : Nat} (h : n2 < n0) : n2 * (K + 1) + (K + 1) ≤ n0 * (K + 1) := by
  rw [← Nat.succ_mul]
  exact Nat.mul_le_mul_right _ h

/-- A token other than the end of input was taken from the layer below. -/
theorem hook_other {hooks : TokenLayer η} {rest : List (TokenLayer η)} {ls1 : LState η} {ps : PState η} {st : η} {n0 n2 : Nat} {t : Token}
    {r : Except PErr (Bool × List Token)} (hlt : n2 < n0) (hmono : φ rest.length ls1.ps.st ≤ φ rest.length st)
    (h2 : HooksLeft φ K B rest { ls1 with ps := ps } n2)
    (ht : t.type ≠ eoiTokenType) (hd : HookDone φ K rest.length (hooks[0]? = some none) ls1.ps.st (some t) ps.st r)
    {f : Nat → Nat → LState η → Run (LState η × Except PErr (Option Token))} {P : LState η → Prop} (hP : ∀ q, P { queues := q, ps := ps })
    (hloop : Halts (fun k n => f k n { ls1 with ps := ps }) (fun r => FedAfter (HooksLeft φ K B (hooks :: rest))
      (owed φ hooks rest.length ps.st n2 + n2 * (K + 1)) r.2 r.1 ∧ P r.1)) :
    Halts (fun k n => (match (ps, r) with
          | (ps, .error e) => .done ({ queues := [] :: ls1.queues, ps := ps }, .error e)
          | (ps, .ok (emit, extra)) =>
            match appendExtra env.g [] extra with
            | .error e => .done ({ queues := appendedExtra env.g [] extra :: ls1.queues, ps := ps }, .error e)
            | .ok q =>
              if emit then .done ({ queues := q :: ls1.queues, ps := ps }, .ok (some t))
              else
                match q with
                | t :: q => .done ({ queues := q :: ls1.queues, ps := ps }, .ok (some t))
                | [] => f k n { ls1 with ps := ps }))
      (fun r => FedAfter (HooksLeft φ K B (hooks :: rest)) (owed φ hooks rest.length st n0 + n0 * (K + 1)) r.2 r.1 ∧ P r.1) := by
  obtain ⟨-, hd⟩ := hd
  dsimp only at hd
  rw [if_neg ht] at hd
  rw [owed_pos (by omega)]
  have hmul := mul_lt (K := K) hlt
  have hos : owed φ hooks rest.length ps.st n2 ≤ φ rest.length ps.st := owed_le_self
  cases r with
  | error e =>
    refine .done ⟨⟨_, ?_, h2.queue (xs := []) (es := []) (by simp) (by simp) (by simp)⟩, hP _⟩
    dsimp only at hd ⊢
    simp only [List.length_nil]
    omega
  | ok x =>
    obtain ⟨emit, extra⟩ := x
    obtain ⟨h3, h4⟩ := hd
    dsimp only at h3 h4 ⊢
    cases ha : appendExtra env.g [] extra with
    | error e =>
      obtain ⟨xs', es', h5, h6, h7, h8⟩ := takeWhile_parts (p := fun t => env.g.isValidType t.type) h4 (es := []) (by simp)
      have hes : es' = [] := by
        rw [List.append_nil] at h5
        refine List.eq_nil_iff_forall_not_mem.mpr fun x hx => h4 x ?_ (h7 x hx)
        exact (List.takeWhile_prefix _).subset (by rw [h5]; exact List.mem_append_right _ hx)
      subst hes
      rw [List.append_nil] at h5
      have hq := h2.queue (hooks := hooks) (xs := xs') (es := []) h6 (by simp) (by simp)
      rw [show xs' ++ [] = appendedExtra env.g [] extra by rw [appendedExtra, List.nil_append, h5]] at hq
      refine .done ⟨⟨_, ?_, hq⟩, hP _⟩
      dsimp only
      split at h3 <;> omega
    | ok q =>
      have hq : q = extra := by simpa using (appendExtra_ok _ _ _ ha).1
      subst hq
      dsimp only
      cases emit with
      | true =>
        refine .congr (g := fun _ _ => .done ({ queues := q :: ls1.queues, ps := ps }, .ok (some t))) (fun _ _ => rfl) (.done ⟨?_, hP _⟩)
        refine fedAfter_other ht ?_
        refine ⟨_, ?_, by simpa using h2.queue (hooks := hooks) (xs := q) (es := []) h4 (by simp) (by simp)⟩
        simp at h3
        omega
      | false =>
        cases q with
        | nil =>
          refine (Halts.congr (g := fun k n => f k n { ls1 with ps := ps }) (fun _ _ => rfl) hloop).mono ?_
          rintro ⟨ls', res⟩ ⟨h5, h6⟩
          refine ⟨?_, h6⟩
          simp at h3
          have hle : owed φ hooks rest.length ps.st n2 + n2 * (K + 1) < φ rest.length st + n0 * (K + 1) := by omega
          unfold FedAfter at h5 ⊢
          dsimp only at h5 ⊢
          rcases res with e | (_ | t')
          · obtain ⟨n', a, b⟩ := h5; exact ⟨n', by omega, b⟩
          · obtain ⟨n', a, b⟩ := h5; exact ⟨n', by omega, b⟩
          · dsimp only at h5 ⊢
            split at h5 <;> rename_i hc
            · rw [if_pos hc]; exact h5
            · rw [if_neg hc]; obtain ⟨n', a, b⟩ := h5; exact ⟨n', by omega, b⟩
        | cons t' q =>
          refine .congr (g := fun _ _ => .done ({ queues := q :: ls1.queues, ps := ps }, .ok (some t'))) (fun _ _ => rfl) (.done ⟨?_, hP _⟩)
          refine fedAfter_other (h4 t' (by simp)) ?_
          refine ⟨_, ?_, by simpa using h2.queue (hooks := hooks) (xs := q) (es := []) (fun x hx => h4 x (by simp [hx])) (by simp) (by simp)⟩
          simp at h3
          omega

/-- The end of input was taken from the layer below. -/
theorem hook_end {hooks : TokenLayer η} {rest : List (TokenLayer η)} {ls1 : LState η} {ps : PState η} {st : η} {n0 : Nat} {t : Token}
    {r : Except PErr (Bool × List Token)} (hmono : φ rest.length ls1.ps.st ≤ φ rest.length st) (hidle : hooks[0]? = some none → r = .ok (true, []))
    (h2 : HooksLeft φ K B rest { ls1 with ps := ps } 0)
    (ht : t.type = eoiTokenType) (hd : HookDone φ K rest.length (hooks[0]? = some none) ls1.ps.st (some t) ps.st r)
    {f : Nat → Nat → LState η → Run (LState η × Except PErr (Option Token))} {P : LState η → Prop} (hP : ∀ q, P { queues := q, ps := ps }) :
    Halts (fun k n => (match (ps, r) with
          | (ps, .error e) => .done ({ queues := [] :: ls1.queues, ps := ps }, .error e)
          | (ps, .ok (emit, extra)) =>
            match appendExtra env.g [] extra with
            | .error e => .done ({ queues := appendedExtra env.g [] extra :: ls1.queues, ps := ps }, .error e)
            | .ok q =>
              if emit then .done ({ queues := q :: ls1.queues, ps := ps }, .ok (some t))
              else
                match q with
                | t :: q => .done ({ queues := q :: ls1.queues, ps := ps }, .ok (some t))
                | [] => f k n { ls1 with ps := ps }))
      (fun r => FedAfter (HooksLeft φ K B (hooks :: rest)) (owed φ hooks rest.length st n0 + n0 * (K + 1)) r.2 r.1 ∧ P r.1) := by
  obtain ⟨-, hd⟩ := hd
  dsimp only at hd
  rw [if_pos ht] at hd
  cases r with
  | error e =>
    have hno : ¬ hooks[0]? = some none := fun hc => by cases hidle hc
    refine .done ⟨⟨_, ?_, h2.queue (xs := []) (es := []) (by simp) (by simp) (by simp)⟩, hP _⟩
    have h3 : owed φ hooks rest.length ps.st 0 ≤ φ rest.length ps.st := owed_le_self
    have h4 : owed φ hooks rest.length st n0 = φ rest.length st := by
      unfold owed
      rw [if_neg fun hc => hno hc.2]
    dsimp only at hd ⊢
    simp only [List.length_nil]
    omega
  | ok x =>
    obtain ⟨emit, extra⟩ := x
    obtain ⟨h3, xs, es, h4, h5, h6, h7, h8, h9⟩ := hd
    dsimp only at h3 h4 h8 h9 ⊢
    subst h4
    have hz : owed φ hooks rest.length ps.st 0 = 0 := owed_zero h3
    have hlen : xs.length ≤ owed φ hooks rest.length st n0 := by
      by_cases hc : hooks[0]? = some none
      · have := hidle hc
        simp only [Except.ok.injEq, Prod.mk.injEq, List.append_eq_nil_iff] at this
        rw [this.2.1]
        simp
      · unfold owed
        rw [if_neg fun h => hc h.2]
        omega
    cases ha : appendExtra env.g [] (xs ++ es) with
    | error e =>
      obtain ⟨xs', es', h10, h11, h12, h13⟩ := takeWhile_parts (p := fun t => env.g.isValidType t.type) h5 h6
      have hq := h2.queue (hooks := hooks) (xs := xs') (es := es') h11 h12 (fun _ => ⟨rfl, hz⟩)
      rw [show xs' ++ es' = appendedExtra env.g [] (xs ++ es) by rw [appendedExtra, List.nil_append, h10]] at hq
      refine .done ⟨⟨_, ?_, hq⟩, hP _⟩
      dsimp only
      omega
    | ok q =>
      have hq : q = xs ++ es := by simpa using (appendExtra_ok _ _ _ ha).1
      subst hq
      dsimp only
      cases emit with
      | true =>
        refine .congr (g := fun _ _ => .done ({ queues := (xs ++ es) :: ls1.queues, ps := ps }, .ok (some t))) (fun _ _ => rfl) (.done ⟨?_, hP _⟩)
        rw [h8 rfl]
        refine fedAfter_end ht ?_
        have := h2.queue (hooks := hooks) (xs := []) (es := es) (by simp) h6 (fun _ => ⟨rfl, hz⟩)
        simpa [hz] using this
      | false =>
        cases xs with
        | cons t' xs =>
          refine .congr (g := fun _ _ => .done ({ queues := (xs ++ es) :: ls1.queues, ps := ps }, .ok (some t'))) (fun _ _ => rfl) (.done ⟨?_, hP _⟩)
          refine fedAfter_other (h5 t' (by simp)) ?_
          refine ⟨_, ?_, h2.queue (hooks := hooks) (xs := xs) (es := es) (fun x hx => h5 x (by simp [hx])) h6 (fun _ => ⟨rfl, hz⟩)⟩
          simp only [List.length_cons] at hlen
          dsimp only
          omega
        | nil =>
          cases es with
          | nil => exact absurd rfl (h9 rfl)
          | cons t' es =>
            refine .congr (g := fun _ _ => .done ({ queues := es :: ls1.queues, ps := ps }, .ok (some t'))) (fun _ _ => rfl) (.done ⟨?_, hP _⟩)
            refine fedAfter_end (h6 t' (by simp)) ?_
            have := h2.queue (hooks := hooks) (xs := []) (es := es) (by simp) (fun x hx => h6 x (by simp [hx])) (fun _ => ⟨rfl, hz⟩)
            simpa [hz] using this

theorem hookLoop_halts (hls : LexersOk env.lexers) {hooks : TokenLayer η} {rest : List (TokenLayer η)}
    (hb : ∀ (j : Nat) h, hooks[j]? = some (some h) → HookBound φ K rest.length (j = 0) h) (types : TokenTypeSet)
    (lower : ∀ ls n, HooksLeft φ K B rest ls n → Halts (fun k _ => pullToken env k types rest ls)
      (fun r => FedAfter (HooksLeft φ K B rest) n r.2 r.1 ∧ ∀ j, rest.length ≤ j → φ j r.1.ps.st ≤ φ j ls.ps.st)) (n0 : Nat) :
    ∀ ls : LState η, HooksLeft φ K B rest ls n0 → ∀ st0 : η, (∀ j, rest.length < j → φ j ls.ps.st ≤ φ j st0) →
    Halts (fun k n => hookLoop env k hooks (pullToken env k types rest) n [] ls)
      (fun r => FedAfter (HooksLeft φ K B (hooks :: rest)) (owed φ hooks rest.length ls.ps.st n0 + n0 * (K + 1)) r.2 r.1 ∧
        ∀ j, rest.length < j → φ j r.1.ps.st ≤ φ j st0) := by
  induction n0 using Nat.strong_induction_on with
  | _ n0 ih =>
    intro ls hl st0 hst
    refine .step (fun k n => by rw [hookLoop]) ?_
    refine .bind (lower ls n0 hl) ?_
    rintro ⟨ls1, res⟩ ⟨hfed, hmono⟩
    dsimp only at hfed hmono
    have hst1 : ∀ j, rest.length < j → φ j ls1.ps.st ≤ φ j st0 := fun j hj => le_trans (hmono j (by omega)) (hst j hj)
    cases res with
    | error e =>
      obtain ⟨n1, h1, h2⟩ := hfed
      refine .done ⟨⟨_, ?_, h2.queue (xs := []) (es := []) (by simp) (by simp) (by simp)⟩, hst1⟩
      have := owed_le (hooks := hooks) (hmono rest.length (le_refl _)) h1
      have := Nat.mul_le_mul_right (K + 1) h1
      simp only [List.length_nil]
      omega
    | ok tok =>
      dsimp only
      obtain ⟨n1, hl1, hn1⟩ : ∃ n1, HooksLeft φ K B rest ls1 n1 ∧ (tok = none → n1 ≤ n0) ∧
          ∀ t, tok = some t → if t.type = eoiTokenType then n1 = 0 else n1 < n0 := by
        unfold FedAfter at hfed
        cases tok with
        | none => obtain ⟨n1, h1, h2⟩ := hfed; exact ⟨n1, h2, fun _ => h1, by simp⟩
        | some t =>
          dsimp only at hfed
          by_cases ht : t.type = eoiTokenType
          · rw [if_pos (show t.type = -3 from ht)] at hfed
            exact ⟨0, hfed, by simp, fun t' h => by cases h; rw [if_pos ht]⟩
          · rw [if_neg (show ¬ t.type = -3 from ht)] at hfed
            obtain ⟨n1, h1, h2⟩ := hfed
            exact ⟨n1, h2, by simp, fun t' h => by cases h; rw [if_neg ht]; exact h1⟩
      obtain ⟨l, hsrc, -⟩ := hl1.holds
      refine .bind (handle_halts hls hb ls1.queues ls1.ps hsrc tok) ?_
      rintro ⟨ps, r⟩ ⟨hsh, hd, hidle⟩
      obtain ⟨n2, hn2, hl2⟩ := hl1.less hsrc hsh (fun j hj => hd.1 j (by omega))
      have hst2 : ∀ j, rest.length < j → φ j ps.st ≤ φ j st0 := fun j hj => le_trans (hd.1 j (by omega)) (hst1 j hj)
      cases tok with
      | none =>
        obtain ⟨-, h1, rfl⟩ := hd
        have hn1 := hn1.1 rfl
        refine .congr (g := fun _ _ => .done ({ queues := [] :: ls1.queues, ps := ps }, .ok none)) (fun _ _ => rfl) (.done ⟨?_, hst2⟩)
        refine ⟨_, ?_, hl2.queue (xs := []) (es := []) (by simp) (by simp) (by simp)⟩
        have h3 : φ rest.length ps.st ≤ φ rest.length ls.ps.st := by rw [h1]; exact hmono _ (le_refl _)
        have := owed_le (hooks := hooks) h3 (show n2 ≤ n0 by omega)
        have := Nat.mul_le_mul_right (K + 1) (show n2 ≤ n0 by omega)
        simp only [List.length_nil]
        omega
      | some t =>
        have hn1 := hn1.2 t rfl
        by_cases ht : t.type = eoiTokenType
        · rw [if_pos ht] at hn1
          have hn : n2 = 0 := by omega
          subst hn
          exact hook_end (f := fun k n ls => hookLoop env k hooks (pullToken env k types rest) n [] ls) (P := fun ls => ∀ j, rest.length < j → φ j ls.ps.st ≤ φ j st0)
            (hmono _ (le_refl _)) (fun h => hidle t rfl ht h) hl2 ht hd (fun _ => hst2)
        · rw [if_neg ht] at hn1
          exact hook_other (f := fun k n ls => hookLoop env k hooks (pullToken env k types rest) n [] ls) (P := fun ls => ∀ j, rest.length < j → φ j ls.ps.st ≤ φ j st0)
            (show n2 < n0 by omega) (hmono _ (le_refl _)) hl2 ht hd (fun _ => hst2) (ih n2 (by omega) { ls1 with ps := ps } hl2 st0 hst2)

theorem layers_halt (hls : LexersOk env.lexers) (types : TokenTypeSet) {layers : List (TokenLayer η)} (hb : HooksBound φ K layers) :
    ∀ ls n, HooksLeft φ K B layers ls n → Halts (fun k _ => pullToken env k types layers ls)
      (fun r => FedAfter (HooksLeft φ K B layers) n r.2 r.1 ∧ ∀ j, layers.length ≤ j → φ j r.1.ps.st ≤ φ j ls.ps.st) := by
  induction layers with
  | nil =>
    intro ls n h
    obtain ⟨r, N, h1, h2, h3⟩ := pipeline_supply env hls B ls n types h
    refine ⟨r, ⟨N, fun k _ hk _ => h1 k hk⟩, h2, ?_⟩
    rintro ⟨ls', res⟩ he
    refine ⟨h3 ls' res he, fun j _ => ?_⟩
    have h4 := h1 N (le_refl _)
    rw [he] at h4
    dsimp only [pullToken] at h4
    cases hf : fetchToken env N ls.ps.src types with
    | panic => rw [hf] at h4; cases h4
    | timeout => rw [hf] at h4; cases h4
    | done x => rw [hf] at h4; cases h4; exact le_refl _
  | cons hooks rest ih =>
    intro ls n h
    obtain ⟨xs, es, qs, n0, hq, hx, he, hl, hz, rfl⟩ := h
    obtain ⟨queues, ps⟩ := ls
    dsimp only at hq hl hz ⊢
    subst hq
    cases xs with
    | cons t xs =>
      refine .congr (g := fun _ _ => .done ({ queues := (xs ++ es) :: qs, ps := ps }, .ok (some t))) (fun _ _ => rfl) (.done ⟨?_, fun _ _ => le_refl _⟩)
      refine fedAfter_other (hx t (by simp)) ?_
      refine ⟨_, ?_, HooksLeft.queue (hooks := hooks) hl (xs := xs) (es := es) (fun x h => hx x (by simp [h])) he hz⟩
      simp only [List.length_cons]
      omega
    | nil =>
      cases es with
      | cons t es =>
        refine .congr (g := fun _ _ => .done ({ queues := es :: qs, ps := ps }, .ok (some t))) (fun _ _ => rfl) (.done ⟨?_, fun _ _ => le_refl _⟩)
        refine fedAfter_end (he t (by simp)) ?_
        obtain ⟨h1, h2⟩ := hz (by simp)
        subst h1
        have := HooksLeft.queue (hooks := hooks) hl (xs := []) (es := es) (by simp) (fun x h => he x (by simp [h])) (fun _ => ⟨rfl, h2⟩)
        simpa [h2] using this
      | nil =>
        have := (hookLoop_halts hls hb.1 types (fun ls n h => ih hb.2 ls n h) n0 { queues := qs, ps := ps } hl ps.st (fun _ _ => le_refl _)).diag
        refine .congr (g := fun k _ => hookLoop env k hooks (pullToken env k types rest) k [] { queues := qs, ps := ps }) (fun _ _ => rfl) (this.mono ?_)
        rintro ⟨ls', res⟩ ⟨h1, h2⟩
        refine ⟨?_, fun j hj => h2 j hj⟩
        simpa using h1

end

end Verif.Proof
