/-
The "indent" layer and the pipeline.
-/
import Verif.Proof.Indent
import Verif.Proof.TokenLayer
import Verif.Proof.Pipeline

namespace Verif.Proof.Indent

open Verif.Model Verif.Spec Verif.Spec.Indent Verif.Proof
open Verif.Model.Tree (bindRun)

variable {l : IndentLayer} {opened closed : Token}

/-- A hook that only returns. -/
def Final {η : Type} : HookProg η → Prop
  | .ret _ _ _ => True
  | .fail _ _ => True
  | .crash => True
  | _ => False

/-- A hook that peeks at most once. -/
def Once {η : Type} : HookProg η → Prop
  | .peek k => ∀ r, Final (k r)
  | p => Final p

theorem spaceNext_final (l : IndentLayer) (s : IndentState) (t : Token) (next : Option Token) :
    Final (indentSpaceNext l s t next) := by
  unfold indentSpaceNext
  cases next with
  | none => trivial
  | some u =>
    simp only
    split
    · trivial
    · split
      · trivial
      · trivial
      · trivial
      · split <;> trivial
      · split <;> trivial
      · trivial

theorem handle_once (l : IndentLayer) (s : IndentState) (t : Token) : Once (indentHandle l s t) := by
  unfold indentHandle
  split
  · unfold indentEoi
    split
    · trivial
    · split <;> trivial
  · unfold indentCommon
    split
    · trivial
    · trivial
    · split <;> trivial
    · split <;> trivial
    · trivial
    · trivial
  · unfold indentSpace
    split
    · trivial
    · intro r
      cases r with
      | error e => trivial
      | ok next => exact spaceNext_final l _ _ _
  · unfold indentSideToken
    split
    · trivial
    · intro r
      simp only
      split
      · trivial
      · trivial
      · split <;> trivial
  · trivial

/-- What was emitted for a token, special tokens are not dropped. -/
def keepSpecial (t : Token) (x : Bool × List Token) : Bool × List Token :=
  if ¬ x.1 ∧ t.type < 0 then if x.2.isEmpty then (true, x.2) else (x.1, x.2 ++ [t]) else x

theorem keepSpecial_emitted (t : Token) (x : Bool × List Token) :
    (if (keepSpecial t x).1 then [t] else []) ++ (keepSpecial t x).2 = emitted t x := by
  obtain ⟨emit, extra⟩ := x
  unfold keepSpecial emitted
  cases emit with
  | true => simp
  | false =>
    by_cases h : t.type < 0
    · cases extra <;> simp [h]
    · simp [h]

/-- The hook worked, so it got some answer from `PeekToken`. -/
theorem run_answered {η : Type} {env : TEnv η} {fuel : Nat} {qs : List (List Token)} {prog : HookProg η} (ho : Once prog)
    {tc tc' : TC} {st : η} {x : Bool × List Token} (h : prog.run env fuel qs tc = .done (tc', st, .ok x)) :
    ∃ r, answered r prog = some (st, .ok x) := by
  have fin : ∀ {p : HookProg η} {tc}, Final p → p.run env fuel qs tc = .done (tc', st, .ok x) → ∀ r, answered r p = some (st, .ok x) := by
    intro p tc hp h r
    cases p with
    | ret s e l => simp only [HookProg.run, Run.done.injEq, Prod.mk.injEq, Except.ok.injEq] at h; simp [answered, h]
    | fail s e => simp [HookProg.run] at h
    | crash => simp [HookProg.run] at h
    | peek k => cases hp
    | read k => cases hp
    | call c k => cases hp
  cases prog with
  | peek k =>
    rw [HookProg.run] at h
    obtain ⟨r, -, h⟩ := bindRun_done.1 h
    exact ⟨r.2, fin (ho r.2) h r.2⟩
  | ret s e l => exact ⟨.ok none, fin (p := .ret s e l) ho h _⟩
  | fail s e => exact ⟨.ok none, fin (p := .fail s e) ho h _⟩
  | crash => exact ⟨.ok none, fin (p := .crash) ho h _⟩
  | read k => cases ho
  | call c k => cases ho

/-- The hook that peeks a pending token. -/
theorem run_pending {η : Type} {env : TEnv η} {fuel : Nat} {qs : List (List Token)} {prog : HookProg η} (ho : Once prog)
    {u : Token} (hu : peekQueues qs 0 = some u ∨ Final prog) (src : SrcQueue) {st : η} {x : Except Nat (Bool × List Token)}
    {r : Option Token} (hr : peekQueues qs 0 = some u → r = some u) (h : answered (.ok r) prog = some (st, x)) :
    ∃ d, prog.run env fuel qs { src := src } = .done ({ src := src, distance := d }, st, x.mapError .hook) := by
  have fin : ∀ {p : HookProg η} {d}, Final p → answered (.ok r) p = some (st, x) →
      p.run env fuel qs { src := src, distance := d } = .done ({ src := src, distance := d }, st, x.mapError .hook) := by
    intro p d hp h
    cases p with
    | ret s e l =>
      simp only [answered, Option.some.injEq, Prod.mk.injEq] at h
      obtain ⟨rfl, rfl⟩ := h
      rfl
    | fail s e =>
      simp only [answered, Option.some.injEq, Prod.mk.injEq] at h
      obtain ⟨rfl, rfl⟩ := h
      rfl
    | crash => simp [answered] at h
    | peek k => cases hp
    | read k => cases hp
    | call c k => cases hp
  cases prog with
  | peek k =>
    have hu := hu.resolve_right (by simp [Final])
    have hr := hr hu
    subst hr
    refine ⟨1, ?_⟩
    rw [HookProg.run, peekToken]
    simp only [Option.isSome_none, Bool.false_eq_true, if_false, hu, Tree.bindRun, Nat.zero_add]
    exact fin (ho _) h
  | ret s e l => exact ⟨0, fin (p := .ret s e l) ho h⟩
  | fail s e => exact ⟨0, fin (p := .fail s e) ho h⟩
  | crash => exact ⟨0, fin (p := .crash) ho h⟩
  | read k => cases ho
  | call c k => cases ho

/-- Names of special tokens are not used by the grammar. -/
def PlainNames (g : Grammar) : Prop :=
  g.tokenName [] = some anyToken ∧ g.tokenName (bytesOf "-eoi-") = some eoiTokenType

theorem indent_layer (extra : List (List Nat)) (hn : PlainNames l.g) :
    ∃ layer, newTokenLayer l.g extra l.hooks = some (some (extra, some layer)) ∧
      ∀ (env : TEnv IndentState), env.g = l.g → ∀ tok : Token, l.g.isValidType tok.type = true →
        pickHook env layer tok = some (if tok.type = eofTokenType then none else some (indentHandle l)) := by
  obtain ⟨layer, h1, h2⟩ := newTokenLayer_spec l.g extra [([], indentHandle l), (bytesOf "-eoi-", indentHandle l)] (by simp)
    (by simp [hn.1, hn.2])
  refine ⟨layer, h1, ?_⟩
  intro env henv tok hv
  replace hv := of_decide_eq_true hv
  simp only [eoiTokenType, anyToken] at hv
  rw [← henv] at h2 hv
  rw [pickHook_spec env _ layer h2 tok (by omega) (by omega)]
  have hfor : ∀ i, hookFor env.g [([], indentHandle l), (bytesOf "-eoi-", indentHandle l)] i =
      if i = anyToken ∨ i = eoiTokenType then some (indentHandle l) else none := by
    intro i
    simp only [hookFor, henv, hn.1, hn.2, List.filter_cons, List.filter_nil, Option.some.injEq]
    by_cases h1 : anyToken = i
    · subst h1; rfl
    · by_cases h2 : eoiTokenType = i
      · subst h2; rfl
      · simp [h1, h2, Ne.symm h1, Ne.symm h2]
  simp only [hfor]
  have e1 : anyToken = -1 := rfl
  have e2 : eoiTokenType = -3 := rfl
  have e3 : eofTokenType = -2 := rfl
  by_cases h1 : tok.type < 0
  · rw [if_pos h1]
    by_cases h2 : tok.type = eofTokenType
    · rw [if_pos h2, if_neg (by omega)]
    · rw [if_neg h2, if_pos (by omega)]
  · rw [if_neg h1, if_neg (c := tok.type = anyToken ∨ _) (by omega), if_pos (.inl rfl), if_neg (by omega)]
    rfl

/-- What `handleToken` does. -/
theorem handleToken_indent {env : TEnv IndentState} {layer : TokenLayer IndentState} {tok : Token}
    (h : pickHook env layer tok = some (if tok.type = eofTokenType then none else some (indentHandle l)))
    (fuel : Nat) (qs : List (List Token)) (src : SrcQueue) (s : IndentState) :
    handleToken env fuel layer qs ⟨src, s⟩ (some tok) =
      bindRun ((indentHandle l s tok).run env fuel qs { src := src }) fun r =>
          orPanic r.1.restore fun src => .done ({ src := src, st := r.2.1 }, r.2.2.map (keepSpecial tok)) := by
  unfold handleToken
  simp only [h, orPanic]
  by_cases he : tok.type = eofTokenType
  · have hrole : l.role tok = .empty := by
      unfold IndentLayer.role
      rw [he, if_neg (by decide), if_pos (.inl (by decide))]
    simp only [he, if_true, indentHandle, hrole, HookProg.run, Tree.bindRun, TC.restore]
    rfl
  · simp only [he, if_false]
    rfl

theorem feedLayer_feed {env : TEnv IndentState} {layer : TokenLayer IndentState}
    (h : ∀ tok : Token, l.g.isValidType tok.type = true →
      pickHook env layer tok = some (if tok.type = eofTokenType then none else some (indentHandle l)))
    (hp : PlainRoles l) (fuel : Nat) (src : SrcQueue) : ∀ (ts : List Token) (s : IndentState),
      (∀ t ∈ ts, l.g.isValidType t.type = true) → (∀ us t, ts = us ++ [t] → t.type = eoiTokenType) →
      ∀ {x}, feed l s ts = some x → ∃ s', feedLayer env fuel layer ⟨src, s⟩ ts = .done (⟨src, s'⟩, (x.map (·.2)).mapError .hook)
  | [], s, _, _, x, hx => by
    simp only [feed, Option.some.injEq] at hx
    subst hx
    exact ⟨s, rfl⟩
  | t :: ts, s, hv, hend, x, hx => by
    have hend' : ∀ us u, ts = us ++ [u] → u.type = eoiTokenType := fun us u h => hend (t :: us) u (by rw [h]; rfl)
    rw [feedLayer, handleToken_indent (h t (hv t (by simp)))]
    rw [feed] at hx
    cases ha : answered (.ok ts.head?) (indentHandle l s t) with
    | none => rw [ha] at hx; cases hx
    | some y =>
      obtain ⟨s1, y⟩ := y
      have key : ∃ d, (indentHandle l s t).run env fuel [ts] { src := src } =
          .done ({ src := src, distance := d }, s1, y.mapError .hook) := by
        refine run_pending (u := ts.head?.getD t) (handle_once l s t) ?_ src ?_ ha
        · cases ts with
          | nil =>
            refine .inr ?_
            have := (role_eoi hp).2 (hend [] t rfl)
            have ho := handle_once l s t
            simp only [indentHandle, this] at ho ⊢
            unfold indentEoi
            split
            · trivial
            · split <;> trivial
          | cons u us => exact .inl rfl
        · cases ts with
          | nil => simp [peekQueues]
          | cons u us => intro _; rfl
      obtain ⟨d, key⟩ := key
      rw [key]
      simp only [Tree.bindRun, TC.restore, orPanic]
      rw [ha] at hx
      cases y with
      | error e =>
        simp only [Option.some.injEq] at hx
        subst hx
        exact ⟨s1, rfl⟩
      | ok r =>
        simp only at hx
        cases hf : feed l s1 ts with
        | none => rw [hf] at hx; cases hx
        | some z =>
          rw [hf] at hx
          obtain ⟨s2, hz⟩ := feedLayer_feed h hp fuel src ts s1 (fun t ht => hv t (by simp [ht])) hend' hf
          refine ⟨s2, ?_⟩
          simp only [Except.mapError, Except.map]
          rw [hz]
          simp only [Tree.bindRun]
          cases z with
          | error e =>
            simp only [Option.some.injEq] at hx
            subst hx
            rfl
          | ok z =>
            obtain ⟨s3, out⟩ := z
            simp only [Option.some.injEq] at hx
            subst hx
            have := keepSpecial_emitted t r
            simp only [Except.map, Except.mapError, ← this]

theorem handle_inv {env : TEnv IndentState} {layer : TokenLayer IndentState} {tok : Token}
    (h : pickHook env layer tok = some (if tok.type = eofTokenType then none else some (indentHandle l)))
    {fuel : Nat} {qs : List (List Token)} {src src' : SrcQueue} {s s' : IndentState} {emit : Bool} {extra : List Token}
    (hr : handleToken env fuel layer qs ⟨src, s⟩ (some tok) = .done (⟨src', s'⟩, .ok (emit, extra))) :
    ∃ r x, answered r (indentHandle l s tok) = some (s', .ok x) ∧ (if emit then [tok] else []) ++ extra = emitted tok x := by
  rw [handleToken_indent h] at hr
  obtain ⟨⟨tc, st, y⟩, h1, hr⟩ := bindRun_done.1 hr
  obtain ⟨src1, -, hr'⟩ := orPanic_done.1 hr
  clear hr
  simp only [Run.done.injEq, Prod.mk.injEq, PState.mk.injEq] at hr'
  obtain ⟨⟨-, rfl⟩, hr⟩ := hr'
  cases y with
  | error e => cases hr
  | ok x =>
    simp only [Except.map, Except.ok.injEq] at hr
    obtain ⟨r, ha⟩ := run_answered (handle_once l s tok) h1
    refine ⟨r, x, ha, ?_⟩
    rw [← keepSpecial_emitted, hr]

theorem handles_marks {env : TEnv IndentState} {layer : TokenLayer IndentState}
    (h : ∀ tok : Token, l.g.isValidType tok.type = true →
      pickHook env layer tok = some (if tok.type = eofTokenType then none else some (indentHandle l)))
    (hp : PlainRoles l) (h1 : l.g.makeToken l.indentType [] = some opened) (h2 : l.g.makeToken l.dedentType [] = some closed)
    (fuel : Nat) (e : Token) (he : e.type = eoiTokenType) : ∀ (ts : List Token) (s s' : IndentState) (out : List Token),
      SInv l s → (∀ t ∈ ts, l.g.isValidType t.type = true ∧ t.type ≠ eoiTokenType) →
      Handles env fuel layer s (ts ++ [e]) out s' → ∃ marks, out = marks.map (Mark.token opened closed) ∧
        depth marks s.stack.length = some 0 ∧
        (originals marks).filter (l.role · ≠ .empty) = s.spaces ++ ts.filter (l.role · ≠ .empty) ++ [e, e] ∧
        (originals marks).filter (l.role · = .empty) = ts.filter (l.role · = .empty)
  | [], s, s', out, hs, _, hh => by
    have hre := (role_eoi hp).2 he
    cases hh with
    | @cons _ s1 _ _ _ out' extra emit qs src src' hr hh =>
      cases hh
      have hve : l.g.isValidType e.type = true := by
        rw [he]
        unfold Grammar.isValidType
        have e2 : eoiTokenType = -3 := rfl
        have e1 : anyToken = -1 := rfl
        exact decide_eq_true (by omega)
      obtain ⟨r, x, ha, hx⟩ := handle_inv (h e hve) hr
      have hlt := role_type hp hre
      simp only [indentHandle, hre, indentEoi, h2, indentPad, List.append_nil, answered, Option.some.injEq, Prod.mk.injEq,
        Except.ok.injEq] at ha
      obtain ⟨-, rfl⟩ := ha
      rw [List.append_nil, hx]
      have hsp : s.spaces.filter (l.role · ≠ .empty) = s.spaces := by
        rw [List.filter_eq_self]
        intro t ht
        simp [hs.spaces t ht]
      have hsp' : s.spaces.filter (l.role · = .empty) = [] := by
        rw [List.filter_eq_nil_iff]
        intro t ht
        simp [hs.spaces t ht]
      refine ⟨List.replicate s.stack.length .closing ++ s.spaces.map .orig ++ [.orig e, .orig e], ?_, ?_, ?_, ?_⟩
      · simp [emitted, hlt, Mark.token, Function.comp_def]
      · rw [depth_append, depth_append, depth_closing _ _ (le_refl _)]
        simp [depth_orig, depth]
      · simp only [originals_append, originals_closing, originals_orig, List.nil_append, List.filter_append, hsp, originals]
        simp [hre]
      · simp only [originals_append, originals_closing, originals_orig, List.nil_append, List.filter_append, hsp', originals]
        simp [hre]
  | t :: ts, s, s', out, hs, hv, hh => by
    cases hh with
    | @cons _ s1 _ _ _ out' extra emit qs src src' hr hh =>
      obtain ⟨r, x, ha, hx⟩ := handle_inv (h t (hv t (by simp)).1) hr
      have hrole : l.role t ≠ .eoi := fun hc => (hv t (by simp)).2 ((role_eoi hp).1 hc)
      obtain ⟨emit', extra'⟩ := x
      obtain ⟨hs1, marks, k1, k2, k3⟩ := step_any h1 h2 hs hrole ha
      obtain ⟨marks', m1, m2, m3, m4⟩ := handles_marks h hp h1 h2 fuel e he ts s1 s' out' hs1 (fun t ht => hv t (by simp [ht])) hh
      have hem : emitted t (emit', extra') = (if emit' then [t] else []) ++ extra' := by
        unfold emitted
        cases emit' with
        | true => simp
        | false =>
          by_cases hlt : t.type < 0
          · have hemp : l.role t = .empty := by
              by_contra hne
              exact role_nonneg hrole hne hlt
            simp [indentHandle, hemp, answered] at ha
          · simp [hlt]
      have hsp : ∀ s : IndentState, SInv l s → s.spaces.filter (l.role · ≠ .empty) = s.spaces := by
        intro s hs
        rw [List.filter_eq_self]
        intro t ht
        simp [hs.spaces t ht]
      have hsp' : ∀ s : IndentState, SInv l s → s.spaces.filter (l.role · = .empty) = [] := by
        intro s hs
        rw [List.filter_eq_nil_iff]
        intro t ht
        simp [hs.spaces t ht]
      refine ⟨marks ++ marks', ?_, ?_, ?_, ?_⟩
      · rw [hx, hem, k1, m1, List.map_append]
      · rw [depth_append, k2]; exact m2
      · rw [originals_append, List.filter_append, m3]
        split at k3
        · next hemp =>
          rw [k3.1, k3.2]
          simp [hemp]
        · next hemp =>
          have := congrArg (List.filter (l.role · ≠ .empty)) k3
          rw [List.filter_append, List.filter_append, hsp s hs, hsp s1 hs1] at this
          rw [← List.append_assoc, ← List.append_assoc, ← this]
          simp [hemp]
      · rw [originals_append, List.filter_append, m4]
        split at k3
        · next hemp =>
          rw [k3.1]
          simp [hemp]
        · next hemp =>
          have := congrArg (List.filter (l.role · = .empty)) k3
          rw [List.filter_append, List.filter_append, hsp' s hs, hsp' s1 hs1] at this
          have h0 : [t].filter (l.role · = .empty) = [] := by simp [hemp]
          rw [h0, List.append_nil, List.append_nil] at this
          rw [← this]
          simp [hemp]

theorem feedLayer_handles {η : Type} {env : TEnv η} {fuel : Nat} {layer : TokenLayer η} : ∀ (ts : List Token) (ps : PState η)
    {ps' : PState η} {out : List Token}, feedLayer env fuel layer ps ts = .done (ps', .ok out) →
      Handles env fuel layer ps.st ts out ps'.st
  | [], ps, ps', out, h => by
    simp only [feedLayer, Run.done.injEq, Prod.mk.injEq, Except.ok.injEq] at h
    obtain ⟨rfl, rfl⟩ := h
    exact .nil
  | t :: ts, ps, ps', out, h => by
    rw [feedLayer] at h
    obtain ⟨⟨ps1, x⟩, h1, h⟩ := bindRun_done.1 h
    cases x with
    | error e => cases h
    | ok x =>
      obtain ⟨emit, extra⟩ := x
      simp only at h
      obtain ⟨⟨ps2, y⟩, h2, h'⟩ := bindRun_done.1 h
      simp only [Run.done.injEq, Prod.mk.injEq] at h'
      obtain ⟨rfl, h'⟩ := h'
      cases y with
      | error e => cases h'
      | ok o =>
        simp only [Except.map, Except.ok.injEq] at h'
        subst h'
        exact .cons [ts] ps.src ps1.src h1 (feedLayer_handles ts ps1 h2)

end Verif.Proof.Indent
