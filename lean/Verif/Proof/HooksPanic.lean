/-
Token hooks without panics.
-/
import Verif.Proof.NoPanicTables
import Verif.Proof.HooksHalt
import Verif.Model.Indent

namespace Verif.Proof

open Verif Verif.Model Verif.Model.Lexer Verif.Spec Verif.Spec.Lex
open Verif.Model.Tree (bindRun)

variable {η : Type}

/-- At most `B` sources. -/
def Few (B : Nat) (q : SrcQueue) : Prop := ∃ l, Holds q l ∧ l.length ≤ B

theorem inside_few {B : Nat} {q : SrcQueue} (h : Few B q) {c : QueueCall} (hc : Inside c) : ∃ q', c.run q = some q' ∧ Few B q' := by
  obtain ⟨l, h, hB⟩ := h
  have hmove : ∀ q' f, SrcQueue.Rep q' (SrcList.move f l) → (∀ (c : Src) p, p ≤ c.len → f c p ≤ c.len) → Few B q' := by
    intro q' f hr hf
    exact ⟨_, ⟨hr, h.ok.move _ hf, by rw [SrcQueue.move_length]; exact h.size⟩, by rw [SrcQueue.move_length]; exact hB⟩
  cases c with
  | skip n => exact ⟨_, rfl, hmove _ _ (h.rep.skip n) fun c p hp => by split <;> omega⟩
  | next =>
    obtain ⟨q1, e, r⟩ := h.rep.next h.size
    refine ⟨q1, by simp only [QueueCall.run, e, Option.map_some], _, ⟨r, h.ok.next, by have := h.size; simp; omega⟩, by simp; omega⟩
  | append s => exact hc.elim
  | prepend s => exact hc.elim
  | rewind n => exact ⟨_, rfl, hmove _ _ (h.rep.rewind n) fun c p hp => by omega⟩
  | seek n => exact ⟨_, rfl, hmove _ _ (h.rep.seek n) fun c p hp => by omega⟩

theorem fetch_few {env : TEnv η} {n B : Nat} (hls : ∀ l ∈ env.lexers, TypesBelow n l) (hsome : ∃ l ∈ env.lexers, l.typeMask ≠ 0) (k : Nat)
    {q : SrcQueue} (h : Few B q) (types : TokenTypeSet) :
    Fine (fun r => Few B r.1 ∧ (∀ t, r.2 = .ok (some t) → KnownType n t) ∧ (types = allTokenTypes → r.2 ≠ .ok none)) (fetchToken env k q types) := by
  obtain ⟨l, h1, h2⟩ := h
  refine Fine.mono (fetchLoop_fine types k hls h1 none) ?_
  rintro ⟨q', r⟩ ⟨⟨l', h3, h4⟩, h5, h6⟩
  refine ⟨⟨l', h3, by omega⟩, h5, fun hall hx => ?_⟩
  obtain ⟨l0, h7, h8⟩ := hsome
  have := (h6 hx hall).2 l0 h7
  rw [hall] at this
  apply h8
  unfold allTokenTypes at this
  rwa [BitVec.allOnes_and] at this

/-- Sources while a hook is working. -/
def TCFew (B : Nat) (tc : TC) : Prop :=
  Few B tc.src ∧ ∀ s, tc.snap = some s → ∃ q' l', Holds q' l' ∧ l'.length ≤ B ∧ s = SrcQueue.snapOf l'

/-- What may be peeked. -/
def Peeked (n : Nat) (r : Except PErr (Option Token)) : Prop := r ≠ .ok none ∧ ∀ t, r = .ok (some t) → KnownType n t

theorem peekQueues_mem : ∀ {qs : List (List Token)} {d : Nat} {t : Token}, peekQueues qs d = some t → ∃ q ∈ qs, t ∈ q := by
  intro qs
  induction qs with
  | nil => intro d t h; cases h
  | cons q qs ih =>
    intro d t h
    rw [peekQueues] at h
    split at h
    · exact ⟨q, by simp, List.mem_of_getElem? h⟩
    · obtain ⟨q', h1, h2⟩ := ih h
      exact ⟨q', by simp [h1], h2⟩

theorem peek_fine {env : TEnv η} {n B : Nat} (hls : ∀ l ∈ env.lexers, TypesBelow n l) (hsome : ∃ l ∈ env.lexers, l.typeMask ≠ 0) (k : Nat)
    {qs : List (List Token)} (hqs : ∀ q ∈ qs, ∀ t ∈ q, KnownType n t) {tc : TC} (h : TCFew B tc) :
    Fine (fun r => TCFew B r.1 ∧ Peeked n r.2) (peekToken env k qs tc) := by
  have hfetch : ∀ tc : TC, TCFew B tc → Fine (fun r : TC × Except PErr (Option Token) => TCFew B r.1 ∧ Peeked n r.2)
      (bindRun (fetchToken env k tc.src allTokenTypes) fun r => .done ({ tc with src := r.1 }, r.2)) := by
    intro tc h
    refine Fine.bind (fetch_few hls hsome k h.1 allTokenTypes) ?_
    rintro ⟨q', r⟩ ⟨h1, h2, h3⟩
    exact ⟨⟨h1, h.2⟩, h3 rfl, h2⟩
  unfold peekToken
  dsimp only
  split
  · exact hfetch tc h
  · cases hp : peekQueues qs tc.distance with
    | some t =>
      obtain ⟨q, h1, h2⟩ := peekQueues_mem hp
      exact ⟨⟨h.1, h.2⟩, by simp, fun t' ht => by cases ht; exact hqs q h1 t h2⟩
    | none =>
      obtain ⟨l, h1, h2⟩ := h.1
      dsimp only
      rw [h1.rep.snapshot]
      exact hfetch { tc with distance := tc.distance + 1, snap := some (SrcQueue.snapOf l) } ⟨h.1, fun s hs => by cases hs; exact ⟨tc.src, l, h1, h2, rfl⟩⟩

theorem run_fine {env : TEnv η} {n B : Nat} (hls : ∀ l ∈ env.lexers, TypesBelow n l) (hsome : ∃ l ∈ env.lexers, l.typeMask ≠ 0) (k : Nat)
    {qs : List (List Token)} (hqs : ∀ q ∈ qs, ∀ t ∈ q, KnownType n t) {Q : η → Prop} (prog : HookProg η) :
    Sure (Peeked n) (fun st' _ _ => Q st') Q Inside False prog → ∀ tc : TC, TCFew B tc →
    Fine (fun r => TCFew B r.1 ∧ Q r.2.1) (prog.run env k qs tc) := by
  induction prog with
  | ret st emit extra => exact fun h tc htc => ⟨htc, h⟩
  | fail st e => exact fun h tc htc => ⟨htc, h⟩
  | crash => exact fun h tc htc => h.elim
  | peek f ih =>
    intro h tc htc
    rw [HookProg.run]
    refine Fine.bind (peek_fine hls hsome k hqs htc) ?_
    rintro ⟨tc', r⟩ ⟨h1, h2⟩
    exact ih r (h r h2) tc' h1
  | read f ih => exact fun h tc htc => ih _ _ (h _ _) tc htc
  | call c f ih =>
    intro h tc htc
    obtain ⟨q', h1, h2⟩ := inside_few htc.1 h.1
    rw [HookProg.run, h1]
    exact ih h.2 _ ⟨h2, htc.2⟩

theorem restore_few {B : Nat} {tc : TC} (h : TCFew B tc) : ∃ q, tc.restore = some q ∧ Few B q := by
  unfold TC.restore
  cases hs : tc.snap with
  | none => exact ⟨_, rfl, h.1⟩
  | some s =>
    obtain ⟨q1, l', h1, h2, rfl⟩ := h.2 s hs
    obtain ⟨q2, e, r⟩ := SrcQueue.restore_snapOf tc.src l' (by have := h1.size; omega)
    exact ⟨q2, e, l', ⟨r, h1.ok, h1.size⟩, h2⟩

theorem pick_fine {env : TEnv η} {hooks : TokenLayer η} {tok : Token} (hl : 4 ≤ hooks.length) (ht : KnownType env.g.tokens.length tok) :
    ∃ o, pickHook env hooks tok = some o ∧ ∀ h, o = some h → some h ∈ hooks := by
  obtain ⟨t1, t2⟩ := ht
  have t0 : eoiTokenType = -3 := rfl
  rw [t0] at t1
  have first : ∀ is : List Int, (∀ i ∈ is, -3 ≤ i ∧ i + 3 < hooks.length) → ∃ o, List.foldr (fun i rest => (Go.index hooks (i + 3)).bind fun h => match h with
      | some h => some (some h)
      | none => rest) (some none) is = some o ∧ ∀ h, o = some h → some h ∈ hooks := by
    intro is
    induction is with
    | nil => exact fun _ => ⟨none, rfl, by simp⟩
    | cons i is ih =>
      intro hall
      have hi := hall i (by simp)
      obtain ⟨o, h1, h2⟩ := ih fun i h => hall i (by simp [h])
      have hget : Go.index hooks (i + 3) = some (hooks[(i + 3).toNat]'(by omega)) := by
        unfold Go.index
        rw [if_pos (by omega)]
        exact List.getElem?_eq_getElem _
      rw [List.foldr_cons, hget, h1, Option.bind_some]
      cases hx : hooks[(i + 3).toNat]'(by omega) with
      | none => exact ⟨o, rfl, h2⟩
      | some h => exact ⟨some h, rfl, fun h' hh => by cases hh; rw [← hx]; exact List.getElem_mem _⟩
  unfold pickHook
  dsimp only
  split
  · exact first _ (by simp; omega)
  · have htok : ∃ t, Go.index env.g.tokens tok.type = some t := by
      unfold Go.index
      rw [if_pos (by omega)]
      exact ⟨_, List.getElem?_eq_getElem (by omega)⟩
    obtain ⟨t, ht⟩ := htok
    rw [ht, Option.bind_some]
    refine first _ ?_
    intro i hi
    rw [List.mem_append, List.mem_append] at hi
    rcases hi with (hi | hi) | hi
    · split at hi
      · cases hi
      · split at hi
        · split at hi
          · rw [List.mem_singleton.mp hi]; omega
          · cases hi
        · cases hi
    · split at hi
      · rw [List.mem_singleton.mp hi]; omega
      · cases hi
    · rw [List.mem_singleton.mp hi]; omega

theorem handle_fine {env : TEnv η} {B : Nat} (hls : ∀ l ∈ env.lexers, TypesBelow env.g.tokens.length l) (hsome : ∃ l ∈ env.lexers, l.typeMask ≠ 0)
    (k : Nat) {Q : η → Prop} {hooks : TokenLayer η} (hl : 4 ≤ hooks.length) (hs : ∀ h, some h ∈ hooks → HookSafe env.g.tokens.length Q h)
    {qs : List (List Token)} (hqs : ∀ q ∈ qs, ∀ t ∈ q, KnownType env.g.tokens.length t) (ps : PState η) (hps : Few B ps.src ∧ Q ps.st) (tok : Option Token)
    (ht : ∀ t, tok = some t → KnownType env.g.tokens.length t) :
    Fine (fun r => (Few B r.1.src ∧ Q r.1.st) ∧ (tok = none → r.2 = .ok (true, []))) (handleToken env k hooks qs ps tok) := by
  cases tok with
  | none => exact ⟨hps, fun _ => rfl⟩
  | some t =>
    obtain ⟨o, h1, h2⟩ := pick_fine hl (ht t rfl)
    rw [handleToken, h1]
    cases o with
    | none => exact ⟨hps, fun hx => by cases hx⟩
    | some h =>
      refine Fine.bind (run_fine hls hsome k hqs _ (hs h (h2 h rfl) ps.st t hps.2 (ht t rfl)) { src := ps.src } ⟨hps.1, by simp⟩) ?_
      rintro ⟨tc, st', r⟩ ⟨h3, h4⟩
      obtain ⟨q, h5, h6⟩ := restore_few h3
      dsimp only
      rw [h5]
      exact ⟨⟨h6, h4⟩, fun hx => by cases hx⟩

theorem valid_known {g : Grammar} {t : Token} (h : g.isValidType t.type = true) : KnownType g.tokens.length t := by
  have := of_decide_eq_true h
  exact ⟨this.1, this.2.1⟩

theorem takeWhile_valid {α : Type} {p : α → Bool} {l : List α} {x : α} (h : x ∈ l.takeWhile p) : p x = true := by
  induction l with
  | nil => cases h
  | cons a l ih =>
    rw [List.takeWhile_cons] at h
    split at h
    · rename_i ha
      rcases List.mem_cons.mp h with rfl | h
      · exact ha
      · exact ih h
    · cases h

/-- State of sources, queues and variables of hooks. -/
structure HooksAt (n B : Nat) (Q : η → Prop) (size : Nat) (ls : LState η) : Prop where
  src : Few B ls.ps.src
  st : Q ls.ps.st
  size : ls.queues.length = size
  known : ∀ q ∈ ls.queues, ∀ t ∈ q, KnownType n t

/-- What a layer gives. -/
def LayerGave (n B : Nat) (Q : η → Prop) (size : Nat) (types : TokenTypeSet) (r : LState η × Except PErr (Option Token)) : Prop :=
  HooksAt n B Q size r.1 ∧ (∀ t, r.2 = .ok (some t) → KnownType n t) ∧ (types = allTokenTypes → r.2 ≠ .ok none)

theorem hookLoop_fine {env : TEnv η} {B : Nat} (hls : ∀ l ∈ env.lexers, TypesBelow env.g.tokens.length l) (hsome : ∃ l ∈ env.lexers, l.typeMask ≠ 0)
    {Q : η → Prop} {hooks : TokenLayer η} (hl : 4 ≤ hooks.length) (hs : ∀ h, some h ∈ hooks → HookSafe env.g.tokens.length Q h) {size : Nat}
    {types : TokenTypeSet} {lower : LState η → Run (LState η × Except PErr (Option Token))}
    (hlow : ∀ ls, HooksAt env.g.tokens.length B Q size ls → Fine (LayerGave env.g.tokens.length B Q size types) (lower ls)) (k fuel : Nat) (q : List Token)
    (hq : ∀ t ∈ q, KnownType env.g.tokens.length t) (ls : LState η) (h : HooksAt env.g.tokens.length B Q size ls) :
    Fine (LayerGave env.g.tokens.length B Q (size + 1) types) (hookLoop env k hooks lower fuel q ls) := by
  induction fuel generalizing q ls with
  | zero => trivial
  | succ fuel ih =>
    rw [hookLoop]
    refine Fine.bind (hlow ls h) ?_
    rintro ⟨ls1, r⟩ ⟨h1, h2, h3⟩
    have hq1 : ∀ (ps : PState η) q, Few B ps.src → Q ps.st → (∀ t ∈ q, KnownType env.g.tokens.length t) →
        HooksAt env.g.tokens.length B Q (size + 1) ⟨q :: ls1.queues, ps⟩ := by
      intro ps q hf hst hq
      refine ⟨hf, hst, by simp [h1.size], ?_⟩
      intro q' hq' t ht
      rcases List.mem_cons.mp hq' with rfl | hq'
      · exact hq t ht
      · exact h1.known q' hq' t ht
    cases r with
    | error e => exact ⟨hq1 _ _ h1.src h1.st hq, by simp, by simp⟩
    | ok result =>
      dsimp only
      refine Fine.bind (handle_fine hls hsome k hl hs h1.known ls1.ps ⟨h1.src, h1.st⟩ result fun t ht => h2 t (by rw [ht])) ?_
      rintro ⟨ps, x⟩ ⟨⟨h4, h5⟩, h6⟩
      cases x with
      | error e => exact ⟨hq1 _ _ h4 h5 hq, by simp, by simp⟩
      | ok x =>
        obtain ⟨emit, extra⟩ := x
        dsimp only
        cases ha : appendExtra env.g q extra with
        | error e =>
          refine ⟨hq1 _ _ h4 h5 ?_, by simp, by simp⟩
          intro t ht
          rcases List.mem_append.mp ht with ht | ht
          · exact hq t ht
          · exact valid_known (takeWhile_valid (p := fun t : Token => env.g.isValidType t.type) ht)
        | ok q' =>
          obtain ⟨rfl, hv⟩ := appendExtra_ok extra q q' ha
          have hq' : ∀ t ∈ q ++ extra, KnownType env.g.tokens.length t := by
            intro t ht
            rcases List.mem_append.mp ht with ht | ht
            · exact hq t ht
            · exact valid_known (hv t ht)
          cases emit with
          | true => exact ⟨hq1 _ _ h4 h5 hq', fun t ht => h2 t ht, h3⟩
          | false =>
            dsimp only
            rw [if_neg (by simp)]
            cases hx : q ++ extra with
            | cons t q'' =>
              rw [hx] at hq'
              exact ⟨hq1 _ _ h4 h5 fun t ht => hq' t (by simp [ht]), fun t' ht => by cases ht; exact hq' t (by simp), by simp⟩
            | nil => exact ih [] (by simp) _ ⟨h4, h5, h1.size, h1.known⟩

theorem layers_fine {env : TEnv η} {B : Nat} (hls : ∀ l ∈ env.lexers, TypesBelow env.g.tokens.length l) (hsome : ∃ l ∈ env.lexers, l.typeMask ≠ 0)
    {Q : η → Prop} {layers : List (TokenLayer η)} (hs : HooksSafe env.g.tokens.length Q layers) (types : TokenTypeSet) (k : Nat) (ls : LState η)
    (h : HooksAt env.g.tokens.length B Q layers.length ls) :
    Fine (LayerGave env.g.tokens.length B Q layers.length types) (pullToken env k types layers ls) := by
  induction layers generalizing ls with
  | nil =>
    rw [pullToken]
    refine Fine.bind (fetch_few hls hsome k h.src types) ?_
    rintro ⟨q', r⟩ ⟨h1, h2, h3⟩
    exact ⟨⟨h1, h.st, h.size, h.known⟩, h2, h3⟩
  | cons hooks layers ih =>
    obtain ⟨queues, ps⟩ := ls
    rw [pullToken.eq_def]
    dsimp only
    match queues, h with
    | [], h => exact absurd h.size (by simp)
    | (t :: q) :: qs, h =>
      have hk := h.known (t :: q) (by simp)
      refine ⟨⟨h.src, h.st, by simpa using h.size, ?_⟩, fun t' ht => by cases ht; exact hk t (by simp), by simp⟩
      intro q' hq' t' ht'
      rcases List.mem_cons.mp hq' with rfl | hq'
      · exact hk t' (by simp [ht'])
      · exact h.known q' (by simp [hq']) t' ht'
    | [] :: qs, h =>
      obtain ⟨h1, h2⟩ := hs hooks (by simp)
      exact hookLoop_fine hls hsome h1 h2 (fun ls hx => ih (fun layer hl => hs layer (by simp [hl])) ls hx) k k [] (by simp) _
        ⟨h.src, h.st, by simpa using h.size, fun q hq => h.known q (by simp [hq])⟩

theorem hooks_answers {σ : Type} (env : PEnv σ) (tenv : TEnv η) (hg : tenv.g = env.g) (hls : ∀ l ∈ tenv.lexers, TypesBelow env.g.tokens.length l)
    (hsome : ∃ l ∈ tenv.lexers, l.typeMask ≠ 0) {Q : η → Prop} {layers : List (TokenLayer η)} (hs : HooksSafe env.g.tokens.length Q layers) (k B : Nat) :
    Answers (pipelineEnv env tenv layers k) (HooksAt env.g.tokens.length B Q layers.length) (KnownType env.g.tokens.length) := by
  rw [← hg] at hls hs ⊢
  have hp := fun q types hq => layers_fine (B := B) hls hsome hs types k q hq
  refine ⟨fun q types hq => Fine.mono (hp q types hq) fun r hr => ⟨hr.1, hr.2.1⟩, fun t ht => ?_, fun q q' hq he => ?_⟩
  · rw [hg] at ht
    exact ht.2
  · have := hp q allTokenTypes hq
    have he : pullToken tenv k allTokenTypes layers q = _ := he
    rw [he] at this
    exact this.2.2 rfl rfl

theorem hooks_takesBack {σ : Type} (env : PEnv σ) (tenv : TEnv η) {n : Nat} {Q : η → Prop} (layers : List (TokenLayer η)) (k B : Nat) (hB : B < 2 ^ 31) :
    TakesBack (pipelineEnv env tenv layers k) (HooksAt n B Q layers.length) (HooksAt n (B + 1) Q layers.length) (KnownType n) := by
  rintro q t hq - - hs
  obtain ⟨l, h1, h2⟩ := hq.src
  obtain ⟨src, hsrc⟩ := Option.isSome_iff_exists.mp hs
  have : ∃ q', unreadToken q.ps.src t = some q' := by
    unfold unreadToken
    split
    · rw [hsrc]
      obtain ⟨q2, h3, -⟩ := h1.rep.prepend src
      rw [h3]
      exact ⟨_, rfl⟩
    · exact ⟨_, rfl⟩
  obtain ⟨q', hq'⟩ := this
  obtain ⟨l', h3, h4⟩ := unread_sources h1 (by omega) hq'
  refine ⟨{ q with ps := { q.ps with src := q' } }, ?_, ⟨l', h3, by omega⟩, hq.st, hq.size, hq.known⟩
  show (unreadToken q.ps.src t).map _ = _
  rw [hq']; rfl

/-! ### Layers -/

theorem tokenMax_ge {g : Grammar} : ∀ {ks : List (List Nat)} {m m' : Int}, tokenMax g ks m = some m' → m ≤ m' := by
  intro ks
  induction ks with
  | nil => intro m m' h; cases h; exact le_refl _
  | cons k ks ih =>
    intro m m' h
    rw [tokenMax] at h
    split at h
    · cases h
    · have := ih h
      split at this <;> omega

theorem literalMax_ge {g : Grammar} : ∀ (ks extra : List (List Nat)) (m : Int), m ≤ (literalMax g ks extra m).2 := by
  intro ks
  induction ks with
  | nil => intro extra m; exact le_refl _
  | cons k ks ih =>
    intro extra m
    rw [literalMax]
    split
    · refine le_trans ?_ (ih _ _)
      split <;> omega
    · refine le_trans ?_ (ih _ _)
      split <;> omega

theorem fill_members {f : List Nat → Option Int} {A : TokenHook η → Prop} : ∀ (hs : List (List Nat × TokenHook η)), (∀ h ∈ hs, A h.2) →
    ∀ (l0 l1 : TokenLayer η), (∀ k, some k ∈ l0 → A k) → hs.foldl (fun l h => l.bind fun l => (f h.1).bind fun i =>
        Go.setIndex l (i + 3) (some h.2)) (some l0) = some l1 → l1.length = l0.length ∧ ∀ k, some k ∈ l1 → A k := by
  intro hs
  induction hs with
  | nil => intro _ l0 l1 h0 h; cases h; exact ⟨rfl, h0⟩
  | cons h hs ih =>
    intro ha l0 l1 h0 he
    have hnone : ∀ hs : List (List Nat × TokenHook η), hs.foldl (fun l h => l.bind fun l => (f h.1).bind fun i =>
        Go.setIndex l (i + 3) (some h.2)) (none : Option (TokenLayer η)) = none := by
      intro hs
      induction hs with
      | nil => rfl
      | cons h hs ih => rw [List.foldl_cons]; exact ih
    rw [List.foldl_cons, Option.bind_some] at he
    cases hf : f h.1 with
    | none => rw [hf, Option.bind_none, hnone] at he; cases he
    | some i =>
      rw [hf, Option.bind_some] at he
      unfold Go.setIndex at he
      split at he
      · obtain ⟨h1, h2⟩ := ih (fun x hx => ha x (by simp [hx])) _ l1 (fun k hk => by
          rcases List.mem_or_eq_of_mem_set hk with hk | hk
          · exact h0 k hk
          · cases hk; exact ha h (by simp)) he
        exact ⟨by rw [h1, List.length_set], h2⟩
      · have := (hnone hs).symm.trans he
        cases this

theorem newTokenLayer_members {g : Grammar} {extra made : List (List Nat)} {hs : THooks η} {layer : TokenLayer η}
    (h : newTokenLayer g extra hs = some (some (made, some layer))) :
    4 ≤ layer.length ∧ ∀ k, some k ∈ layer → k ∈ hs.tokens.map (·.2) ∨ k ∈ hs.literals.map (·.2) := by
  unfold newTokenLayer at h
  split at h
  · obtain ⟨m, h1, h2⟩ := Option.map_eq_some_iff.mp h
    dsimp only at h2
    obtain ⟨l2, h3, h4⟩ := Option.map_eq_some_iff.mp h2
    cases h4
    have hm := tokenMax_ge h1
    have hm2 := literalMax_ge (g := g) (hs.literals.map (·.1)) extra m
    cases hl : hs.tokens.foldl (fun l h => l.bind fun l => (g.tokenName h.1).bind fun i => Go.setIndex l (i + 3) (some h.2))
        (some (List.replicate ((literalMax g (hs.literals.map (·.1)) extra m).2 + 3 + 1).toNat (none : Option (TokenHook η)))) with
    | none =>
      rw [hl] at h3
      have hnone : ∀ (f : List Nat → Option Nat) (hs : List (List Nat × TokenHook η)), hs.foldl (fun l h => l.bind fun l => (f h.1).bind fun i =>
          Go.setIndex l (i + 3) (some h.2)) (none : Option (TokenLayer η)) = none := by
        intro f hs
        induction hs with
        | nil => rfl
        | cons h hs ih => rw [List.foldl_cons]; exact ih
      rw [hnone] at h3
      cases h3
    | some l1 =>
      rw [hl] at h3
      obtain ⟨h5, h6⟩ := fill_members (A := fun k => k ∈ hs.tokens.map (·.2) ∨ k ∈ hs.literals.map (·.2)) hs.tokens
        (fun h hh => .inl (List.mem_map_of_mem hh)) _ l1 (fun k hk => by simp at hk) hl
      have h3' : hs.literals.foldl (fun l h => l.bind fun l => (((g.pcLiteral (literalMax g (hs.literals.map (·.1)) extra m).1 h.1).map Int.ofNat)).bind fun i =>
          Go.setIndex l (i + 3) (some h.2)) (some l1) = some layer := by
        rw [← h3]
        congr 1
        funext l h
        congr 1
        funext l
        cases g.pcLiteral (literalMax g (hs.literals.map (·.1)) extra m).1 h.1 <;> rfl
      obtain ⟨h7, h8⟩ := fill_members (f := fun x => (g.pcLiteral (literalMax g (hs.literals.map (·.1)) extra m).1 x).map Int.ofNat)
        (A := fun k => k ∈ hs.tokens.map (·.2) ∨ k ∈ hs.literals.map (·.2)) hs.literals
        (fun h hh => .inr (List.mem_map_of_mem hh)) l1 layer h6 h3'
      refine ⟨?_, h8⟩
      rw [h7, h5, List.length_replicate]
      omega
  · cases h

theorem convert_safe {η : Type} (o : Option (Int × List Nat)) (v : ConvertVars) (n : Nat) : HookSafe n (fun _ => True) (convertHook (η := η) o v) := by
  intro st t _ _
  unfold convertHook
  split
  · trivial
  · trivial

theorem indent_safe (l : IndentLayer) (n : Nat) : HookSafe n (fun _ => True) (indentHandle l) := by
  intro st t _ _
  unfold indentHandle
  split
  · unfold indentEoi
    split
    · trivial
    · split <;> trivial
  · unfold indentCommon
    split
    · trivial
    · trivial
    · split <;> trivial
    · split <;> trivial
    · trivial
    · trivial
  · unfold indentSpace
    split
    · trivial
    · intro r hr
      rcases r with e | (_ | next)
      · trivial
      · exact absurd rfl hr.1
      · dsimp only
        unfold indentSpaceNext
        dsimp only
        split
        · trivial
        · split
          · trivial
          · trivial
          · trivial
          · split <;> trivial
          · split <;> trivial
          · trivial
  · unfold indentSideToken
    split
    · trivial
    · intro r hr
      rcases r with e | (_ | next)
      · trivial
      · trivial
      · dsimp only
        split <;> trivial
  · trivial

end Verif.Proof
