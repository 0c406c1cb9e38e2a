/-
Lemmas about the end of a parse with the option `WithFullSource`.
-/
import Verif.Proof.ParseTokens
import Verif.Proof.Sound
import Verif.Spec.FullSource

namespace Verif.Proof

open Verif.Model Verif.Spec
open Verif.Model.Tree (bindRun)

variable {σ : Type}

theorem restLoop_sides {env : PEnv σ} (fuel : Nat) {pc pc' : PC σ} (h : restLoop env fuel pc = .done (.ok pc')) :
    ∃ dl, pc'.delivered = pc.delivered ++ dl ∧ pc'.steps = pc.steps ∧ OnlySides env.g (pc.tokens ++ dl) := by
  induction fuel generalizing pc with
  | zero => simp [restLoop] at h
  | succ fuel ih =>
    rw [restLoop, bindRun_done] at h
    obtain ⟨⟨pc1, r⟩, h1, h⟩ := h
    obtain ⟨src, ts, dl, rfl, h2⟩ := nextToken_spec h1
    rcases r with _ | (_ | t)
    · cases h
    · cases h
    · dsimp only at h
      simp only [received, List.cons_append, List.nil_append] at h2
      split at h
      · rename_i ht
        cases h
        exact ⟨dl, rfl, rfl, [], t, ts, by rw [← h2]; rfl, ht, by simp⟩
      · split at h
        · rename_i hs
          obtain ⟨dl', h3, h4, sides, eoi, rest, h5, h6, h7⟩ := ih h
          refine ⟨dl ++ dl', by rw [h3]; simp, h4, some t :: sides, eoi, rest, ?_, h6, ?_⟩
          · rw [← List.append_assoc, ← h2]
            simp only at h5
            simp [h5]
          · intro x hx
            rcases List.mem_cons.1 hx with rfl | hx
            · exact ⟨t, rfl, hs⟩
            · exact h7 x hx
        · cases h

/-! ### The last token -/

/-- The token was consumed by the last rule. -/
def LastUsed (pc : PC σ) (tok : Option Token) : Prop := ∃ steps r, pc.steps = steps ++ [(tok, r)] ∧ consumes r tok = true

theorem inner_last {env : PEnv σ} (fuel : Nat) {pc pc' : PC σ} {tok : Option Token}
    (h : inner env fuel pc tok = .done (.ok (pc', true))) : LastUsed pc' tok := by
  induction fuel generalizing pc with
  | zero => simp [inner] at h
  | succ fuel ih =>
    rw [inner] at h
    cases hs : pc.stack with
    | nil => rw [hs] at h; cases h
    | cons node rest =>
      rw [hs] at h
      dsimp only at h
      rw [bindRun_done] at h
      obtain ⟨⟨pc1, r⟩, h1, h⟩ := h
      cases r with
      | none => exact absurd h noRule_ne
      | some rule =>
        dsimp only at h
        rw [bindRes_ok] at h
        obtain ⟨⟨pc2, b2⟩, h2, h⟩ := h
        cases b2 with
        | true =>
          simp only [if_true] at h
          cases h
          obtain ⟨hb, stack, log, last, rfl⟩ := applyRule_spec h2
          exact ⟨pc1.steps, rule, rfl, hb.symm⟩
        | false => exact ih h

theorem outer_last {env : PEnv σ} (fuel : Nat) {pc pc' : PC σ} {tok tok' : Option Token} {b b' : Bool}
    (hb : b = true → LastUsed pc tok) (h : outer env fuel pc tok b = .done (.ok (pc', tok', b'))) :
    b' = true → LastUsed pc' tok' := by
  induction fuel generalizing pc tok b with
  | zero => simp [outer] at h
  | succ fuel ih =>
    rw [outer] at h
    cases hs : pc.stack with
    | nil => rw [hs] at h; cases h; exact hb
    | cons node rest =>
      rw [hs] at h
      dsimp only at h
      rw [bindRun_done] at h
      obtain ⟨⟨pc1, r⟩, h1, h⟩ := h
      cases r with
      | error e => cases h
      | ok tok1 =>
        dsimp only at h
        rw [bindRes_ok] at h
        obtain ⟨⟨pc2, b2⟩, h2, h⟩ := h
        refine ih ?_ h
        intro hb2
        dsimp only at hb2
        subst hb2
        exact inner_last fuel h2

theorem consumedBy_last {pc : PC σ} {tok : Option Token} (h : LastUsed pc tok) : tok ∈ consumedBy pc.steps := by
  obtain ⟨steps, r, h1, h2⟩ := h
  rw [h1, consumedBy, List.mem_map]
  refine ⟨(tok, r), ?_, rfl⟩
  rw [List.mem_filter]
  exact ⟨by simp, decide_eq_true ((consumes_iff r tok).1 h2)⟩

/-! ### Where the types of nodes come from -/

/-- Expected types of nodes are those of states. -/
def StateTypes (g : Grammar) (l : List NodeRec) : Prop := ∀ n ∈ l, ∃ st ∈ g.tables.states, n.types = st.types

theorem popLoop_types {env : PEnv σ} {sides : List Token} (l : List NodeRec) {log log' : List Event} {last last' : Option Nat}
    {st : List NodeRec} (hl : StateTypes env.g l) (h : popLoop env sides l log last = .ok (st, log', last')) :
    StateTypes env.g st := by
  induction l generalizing log last with
  | nil => cases h; exact hl
  | cons node rest ih =>
    rw [popLoop] at h
    split at h
    · cases h
      intro n hn
      rcases List.mem_cons.1 hn with rfl | hn
      · exact hl node (by simp)
      · exact hl n (by simp [hn])
    · split at h
      · cases h
      · split at h
        · cases h
        · cases rest with
          | nil => cases h; intro n hn; simp at hn
          | cons parent rest' =>
            dsimp only at h
            split at h
            · cases h
            · exact ih (fun n hn => hl n (by simp [hn])) h

theorem addNode_types {env : PEnv σ} {pc pc' : PC σ} {index : Nat} {tok : Option Token} {st : List NodeRec}
    {log : List Event} (hl : StateTypes env.g st) (h : addNode env pc index tok st log = .done (.ok pc')) :
    StateTypes env.g pc'.stack := by
  rw [addNode] at h
  split at h
  · cases h
  · obtain ⟨f, hf, h⟩ := orPanic_done.mp h
    obtain ⟨s, hs, h⟩ := orPanic_done.mp h
    cases h
    intro n hn
    rcases List.mem_cons.1 hn with rfl | hn
    · exact ⟨s, List.mem_of_getElem? hs, rfl⟩
    · exact hl n hn

theorem pushNode_types {env : PEnv σ} {pc pc' : PC σ} {index : Nat} {tok : Option Token} (hl : StateTypes env.g pc.stack)
    (h : pushNode env pc index tok = .done (.ok pc')) : StateTypes env.g pc'.stack := by
  rw [pushNode] at h
  split at h
  · rename_i hs
    exact addNode_types (by intro n hn; simp at hn) h
  · rename_i node rest hs
    rw [hs] at hl
    split at h
    · cases h
    · split at h
      · cases h
      · refine addNode_types ?_ h
        intro n hn
        rcases List.mem_cons.1 hn with rfl | hn
        · exact hl node (by simp)
        · exact hl n (by simp [hn])

theorem handleNodeToken_types {env : PEnv σ} {pc pc' : PC σ} {tok : Option Token} (hl : StateTypes env.g pc.stack)
    (h : handleNodeToken env pc tok = .done (.ok pc')) : StateTypes env.g pc'.stack := by
  rw [handleNodeToken.eq_def] at h
  split at h
  · cases h; exact hl
  · cases h
  · rename_i node rest hs
    rw [hs] at hl
    have key : ∀ sides, StateTypes env.g ({ node with sides := sides } :: rest) := by
      intro sides n hn
      rcases List.mem_cons.1 hn with rfl | hn
      · exact hl node (by simp)
      · exact hl n (by simp [hn])
    split at h
    · cases h; exact key _
    · split at h
      · cases h
      · cases h; exact key _

theorem moveFrame_types {g : Grammar} {r : Rule} {f f' : Frame} (h : moveFrame g r f = some f') :
    f'.types = f.types ∨ ∃ st ∈ g.tables.states, f'.types = st.types := by
  rw [moveFrame] at h
  split at h
  · cases h; exact .inl rfl
  · split at h
    · cases h; exact .inl rfl
    · cases hi : Go.index g.tables.states r.state with
      | none => rw [hi] at h; cases h
      | some st =>
        rw [hi] at h
        cases h
        refine .inr ⟨st, ?_, rfl⟩
        unfold Go.index at hi
        split at hi
        · exact List.mem_of_getElem? hi
        · cases hi

theorem applyRule_types {env : PEnv σ} {pc pc' : PC σ} {tok : Option Token} {r : Rule} {b : Bool}
    (hl : StateTypes env.g pc.stack) (h : applyRule env pc tok r = .done (.ok (pc', b))) : StateTypes env.g pc'.stack := by
  rw [applyRule] at h
  cases hs : pc.stack with
  | nil => rw [hs] at h; cases h
  | cons node rest =>
    rw [hs] at h hl
    obtain ⟨f, hf, h⟩ := orPanic_done.mp h
    dsimp only at h
    rw [bindRes_ok] at h
    obtain ⟨pc1, h1, h⟩ := h
    rw [bindRes_ok] at h
    obtain ⟨pc2, h2, h⟩ := h
    cases h
    have h0 : StateTypes env.g ({ node with toFrame := f } :: rest) := by
      intro n hn
      rcases List.mem_cons.1 hn with rfl | hn
      · rcases moveFrame_types hf with e | e
        · obtain ⟨st, h3, h4⟩ := hl node (by simp)
          exact ⟨st, h3, e.trans h4⟩
        · exact e
      · exact hl n (by simp [hn])
    have h3 : StateTypes env.g pc1.stack := by
      split at h1
      · split at h1
        · exact pushNode_types h0 h1
        · cases h1
      · split at h1
        · exact handleNodeToken_types h0 h1
        · cases h1; exact h0
    split at h2
    · cases h2
    · rename_i node' rest' hs1
      split at h2
      · rw [popNode, hs1] at h2
        dsimp only at h2
        split at h2
        · cases h2
        · rename_i hp
          cases h2
          refine popLoop_types _ ?_ hp
          rw [hs1] at h3
          intro n hn
          rcases List.mem_cons.1 hn with rfl | hn
          · exact h3 node' (by simp)
          · exact h3 n (by simp [hn])
      · cases h2; exact h3

/-! ### Tokens put back -/

/-- A token that is not skipped by the check of the rest of sources. -/
def Solid (g : Grammar) (t : Token) : Prop :=
  t.type ≠ eofTokenType ∧ t.type ≠ eoiTokenType ∧ g.isSideType t.type = false

/-- Requested types include the types expected by some state. -/
def Covers (g : Grammar) (types : TokenTypeSet) : Prop :=
  ∃ st ∈ g.tables.states, ∀ i, st.types.getLsbD i = true → types.getLsbD i = true

theorem covers_state {g : Grammar} {st : GState} (h : st ∈ g.tables.states) : Covers g st.types := ⟨st, h, fun _ hi => hi⟩

/-- Tokens come from sources: a token pulled for a state has a source, and when it is put back there is still something
to read. -/
structure Rereads (env : PEnv σ) (Good : σ → Prop) : Prop where
  keep : ∀ {s s' types r}, Good s → env.pull s types = .done (s', r) → Good s'
  source : ∀ {s s' types t}, Good s → Covers env.g types → env.pull s types = .done (s', .ok (some t)) →
    Solid env.g t → t.pos.src.isSome = true
  again : ∀ {s s' s'' s3 types t u}, Good s → Covers env.g types → env.pull s types = .done (s', .ok (some t)) →
    Solid env.g t → env.unread s' t = some s'' → env.pull s'' allTokenTypes = .done (s3, .ok u) →
    ∃ v, u = some v ∧ Solid env.g v

/-- The token was pulled from the pipeline just now, as expected by some state. -/
def Pulled (env : PEnv σ) (Good : σ → Prop) (s : σ) (tok : Option Token) : Prop :=
  ∃ s0 types, Covers env.g types ∧ Good s0 ∧ env.pull s0 types = .done (s, .ok tok) ∧
    ∀ t, tok = some t → t.type ≠ eofTokenType

theorem nextLoop_pulled {env : PEnv σ} {Good : σ → Prop} (hk : ∀ {s s' types t}, Good s → env.pull s types = .done (s', .ok t) → Good s')
    {types : TokenTypeSet} (fuel : Nat) {pc pc' : PC σ} {tok : Option Token} (hg : Good pc.src)
    (h : nextLoop env types fuel pc = .done (pc', .ok tok)) :
    ∃ s0, Good s0 ∧ env.pull s0 types = .done (pc'.src, .ok tok) ∧ ∀ t, tok = some t → t.type ≠ eofTokenType := by
  induction fuel generalizing pc with
  | zero => simp [nextLoop] at h
  | succ fuel ih =>
    rw [nextLoop, bindRun_done] at h
    obtain ⟨⟨src, res⟩, h1, h⟩ := h
    cases res with
    | error e => cases h
    | ok t =>
      dsimp only at h
      split at h
      · exact ih (hk hg h1) h
      · rename_i hn
        cases h
        refine ⟨_, hg, h1, ?_⟩
        rintro t rfl he
        exact hn (.inl (by simp [he]))

theorem phase_and {I I' : PC σ → Option Token → Prop} {J J' : PC σ → Prop} {b : Bool} {pc : PC σ} {tok : Option Token}
    (h : Phase I J b pc tok) (h' : Phase I' J' b pc tok) : Phase (fun p t => I p t ∧ I' p t) (fun p => J p ∧ J' p) b pc tok := by
  cases b <;> exact ⟨h, h'⟩

theorem restLoop_first {env : PEnv σ} {fuel : Nat} {pc pc' : PC σ} (ht : pc.tokens = [])
    (hn : ∀ s u, env.pull pc.src allTokenTypes = .done (s, .ok u) → ∃ v, u = some v ∧ Solid env.g v) :
    restLoop env fuel pc ≠ .done (.ok pc') := by
  intro h
  cases fuel with
  | zero => simp [restLoop] at h
  | succ fuel =>
    rw [restLoop, bindRun_done] at h
    obtain ⟨⟨pc1, r⟩, h1, h⟩ := h
    rw [nextToken, ht] at h1
    cases fuel with
    | zero => simp [nextLoop] at h1
    | succ fuel =>
      rw [nextLoop, bindRun_done] at h1
      obtain ⟨⟨src, res⟩, h2, h1⟩ := h1
      cases res with
      | error e => cases h1; cases h
      | ok u =>
        obtain ⟨v, rfl, h3, h4, h5⟩ := hn _ _ h2
        dsimp only at h1
        rw [if_neg (by
          rintro (h6 | h6)
          · simp [h3] at h6
          · have : env.g.isSideToken (some v) = env.g.isSideType v.type := rfl
            rw [this, h5] at h6
            exact absurd h6.1 (by simp))] at h1
        cases h1
        dsimp only at h
        rw [if_neg h4, if_neg (by rw [h5]; simp)] at h
        cases h

/-- What is left when a parse with the option succeeds. -/
theorem finish_left {env : PEnv σ} (hf : env.fullSource = true) {fuel : Nat} {pc pc' : PC σ} {tok : Option Token} {b : Bool}
    (hl : b = true → LastUsed pc tok)
    (hp : Phase (fun pc tok => replay pc.steps pc.delivered = some (tok :: pc.tokens))
      (fun pc => replay pc.steps pc.delivered = some pc.tokens) b pc tok)
    (h : finish env fuel pc tok b = .done (.ok pc')) :
    ∃ rest, replay pc'.steps pc'.delivered = some rest ∧
      (OnlySides env.g rest ∨ (∃ t : Token, some t ∈ consumedBy pc'.steps ∧ t.type = eoiTokenType) ∨
        ∃ t rest', b = false ∧ tok = some t ∧ rest = some t :: rest' ∧ t.type ≠ eoiTokenType ∧ env.g.isSideType t.type = false ∧
          ∃ pc1, putBack env pc tok b = .done pc1 ∧ restLoop env fuel pc1 = .done (.ok pc')) := by
  rw [finish, bindRun_done] at h
  obtain ⟨pc1, h1, h⟩ := h
  obtain ⟨src, rfl⟩ := putBack_spec h1
  split at h
  · rename_i hc
    obtain ⟨dl, h2, h3, h4⟩ := restLoop_sides fuel h
    simp only at h2 h3 h4
    rw [h2, h3]
    cases b with
    | true => exact ⟨_, replay_append _ _ _ dl hp, .inl h4⟩
    | false =>
      refine ⟨_, replay_append _ _ _ dl hp, ?_⟩
      cases tok with
      | none => rw [putBack.eq_def] at h1; cases h1
      | some t =>
        have ht : t.type ≠ eoiTokenType := by
          intro he
          exact hc.2 (by simp [he])
        cases hs : env.g.isSideType t.type with
        | true =>
          left
          obtain ⟨sides, eoi, rest, h5, h6, h7⟩ := h4
          refine ⟨some t :: sides, eoi, rest, by rw [List.cons_append, h5]; rfl, h6, ?_⟩
          intro x hx
          rcases List.mem_cons.1 hx with rfl | hx
          · exact ⟨t, rfl, hs⟩
          · exact h7 x hx
        | false => exact .inr (.inr ⟨t, _, rfl, rfl, rfl, ht, hs, _, h1, h⟩)
  · rename_i hc
    cases h
    simp only
    have : tok.any (fun t => t.type = eoiTokenType) = true := by
      by_contra hn
      exact hc ⟨hf, hn⟩
    cases tok with
    | none => simp at this
    | some t =>
      simp at this
      cases b with
      | true => exact ⟨_, hp, .inr (.inl ⟨t, consumedBy_last (hl rfl), this⟩)⟩
      | false => exact ⟨_, hp, .inl ⟨[], t, _, rfl, this, by simp⟩⟩

/-- Nothing is left, except for a put back token. -/
theorem parse_left {env : PEnv σ} (hf : env.fullSource = true) {fuel : Nat} {src : σ} {pos : SrcPos} {pc : PC σ}
    (h : parse env fuel src pos = .done (.ok pc)) :
    NothingLeft env.g pc.steps pc.delivered ∨
      ∃ t rest, replay pc.steps pc.delivered = some (some t :: rest) ∧ t.type ≠ eoiTokenType ∧ env.g.isSideType t.type = false := by
  obtain ⟨pc0, pc1, tok, b, h1, h2, h3⟩ := parse_split h
  obtain ⟨-, h5⟩ := outer_ok (tokens_inv env) (by
    obtain ⟨n, stack, log, rfl⟩ := pushNode_spec h1
    rfl) (pushNode_ne h1) h2
  obtain ⟨rest, h6, h7 | h7 | ⟨t, rest', -, -, rfl, h8, h9, -⟩⟩ := finish_left hf (outer_last fuel (by simp) h2) h5 h3
  · exact .inl ⟨rest, h6, .inl h7⟩
  · exact .inl ⟨rest, h6, .inr h7⟩
  · exact .inr ⟨t, rest', h6, h8, h9⟩

end Verif.Proof
