/-
Tokens given to the parser by sources in certain states.
-/
import Verif.Props.SoundOn
import Verif.Proof.Halts
import Verif.Model.Pipeline

namespace Verif.Proof

open Verif Verif.Model Verif.Spec
open Verif.Model.Tree (bindRun)

variable {σ : Type}

/-- Sources in states `S` stay in `S` and give only tokens satisfying `P`. -/
def FeedsIn (env : PEnv σ) (S : σ → Prop) (P : Option Token → Prop) : Prop :=
  ∀ src types src' r, S src → env.pull src types = .done (src', r) → S src' ∧ ∀ tok, r = .ok tok → P tok

theorem given_in {env : PEnv σ} {S : σ → Prop} {P : Option Token → Prop} (hP : FeedsIn env S P) :
    LoopInv env (fun pc tok => replay pc.steps pc.delivered = some (tok :: pc.tokens) ∧ S pc.src ∧ ∀ t ∈ pc.delivered, P t)
      (fun pc => replay pc.steps pc.delivered = some pc.tokens ∧ S pc.src ∧ ∀ t ∈ pc.delivered, P t) := by
  have hloop : ∀ {types fuel pc pc' r}, nextLoop env types fuel pc = .done (pc', r) → (S pc.src ∧ ∀ t ∈ pc.delivered, P t) →
      S pc'.src ∧ ∀ t ∈ pc'.delivered, P t := by
    intro types fuel pc pc' r h hd
    induction fuel generalizing pc with
    | zero => simp [nextLoop] at h
    | succ fuel ih =>
      rw [nextLoop, bindRun_done] at h
      obtain ⟨⟨src, q⟩, h1, h⟩ := h
      obtain ⟨h2, h3⟩ := hP _ _ _ _ hd.1 h1
      cases q with
      | error e => cases h; exact ⟨h2, hd.2⟩
      | ok t =>
        dsimp only at h
        split at h
        · exact ih h ⟨h2, hd.2⟩
        · cases h
          refine ⟨h2, ?_⟩
          intro t ht
          rcases List.mem_append.mp ht with ht | ht
          · exact hd.2 t ht
          · rw [List.mem_singleton.mp ht]
            exact h3 _ rfl
  have htok : ∀ {types fuel pc pc' r}, nextToken env fuel pc types = .done (pc', r) → (S pc.src ∧ ∀ t ∈ pc.delivered, P t) →
      S pc'.src ∧ ∀ t ∈ pc'.delivered, P t := by
    intro types fuel pc pc' r h hd
    rw [nextToken.eq_def] at h
    split at h
    · cases h; exact hd
    · exact hloop h hd
  have hcon : ∀ {fuel pc pc' tok tokens tokens' rc rules}, conflictLoop env fuel pc tok tokens rc = .done (pc', tokens', rules) →
      (S pc.src ∧ ∀ t ∈ pc.delivered, P t) → S pc'.src ∧ ∀ t ∈ pc'.delivered, P t := by
    intro fuel
    induction fuel with
    | zero => intro pc pc' tok tokens tokens' rc rules h; simp [conflictLoop] at h
    | succ fuel ih =>
      intro pc pc' tok tokens tokens' rc rules h hd
      rw [conflictLoop, bindRun_done] at h
      obtain ⟨rc1, -, h⟩ := h
      dsimp only at h
      split at h
      · obtain ⟨_, -, h⟩ := orPanic_done.mp h
        cases h; exact hd
      · split at h
        · obtain ⟨_, -, h⟩ := orPanic_done.mp h
          cases h; exact hd
        · rw [bindRun_done] at h
          obtain ⟨⟨pc1, r⟩, h3, h⟩ := h
          have hd1 := htok h3 hd
          cases r with
          | error e =>
            obtain ⟨_, -, h⟩ := orPanic_done.mp h
            cases h; exact hd1
          | ok tok' => exact ih h hd1
  refine ⟨?_, ?_⟩
  · rintro fuel pc pc' tok node rest ⟨hj, hd⟩ hs h
    exact ⟨(tokens_inv env).token hj hs h, htok h hd⟩
  · rintro fuel pc pc1 pc2 tok node rest r b ⟨hi, hd⟩ hs h1 h2
    have h3 := (tokens_inv env).step hi hs h1 h2
    have hd1 : S pc1.src ∧ ∀ t ∈ pc1.delivered, P t := by
      rw [nextRule.eq_def] at h1
      split at h1
      · cases h1; exact hd
      · obtain ⟨rules, -, h1⟩ := orPanic_done.mp h1
        split at h1
        · cases h1
        · cases h1; exact hd
        · rw [bindRun_done] at h1
          obtain ⟨⟨pc0, toks, rules⟩, h4, h1⟩ := h1
          obtain ⟨r', -, h1⟩ := orPanic_done.mp h1
          cases h1
          rw [resolveConflict] at h4
          obtain ⟨top, -, h4⟩ := orPanic_done.mp h4
          have := hcon h4 hd
          exact this
    obtain ⟨-, stack, log, last, rfl⟩ := applyRule_spec h2
    cases b
    · exact ⟨h3, hd1⟩
    · exact ⟨h3, hd1⟩

/-- Consumed tokens are the given ones. -/
theorem consumed_in {env : PEnv σ} {S : σ → Prop} {P : Option Token → Prop} (hP : FeedsIn env S P) {fuel : Nat} {src : σ} (hsrc : S src)
    {pos : SrcPos} {pc : PC σ} (h : parse env fuel src pos = .done (.ok pc)) : ∀ t ∈ consumedBy pc.steps, P t := by
  obtain ⟨pc1, tok, b, h1, h2, h3⟩ := parse_inv (given_in hP) h (fun pc0 h0 => by
    obtain ⟨_, _, _, rfl⟩ := pushNode_spec h0
    exact ⟨rfl, hsrc, by simp⟩)
  obtain ⟨src', ts, dl, read, rfl, -⟩ := finish_spec h3
  have key : ∀ rest, replay pc1.steps pc1.delivered = some rest → (∀ t ∈ pc1.delivered, P t) → ∀ t ∈ consumedBy pc1.steps, P t := by
    intro rest hr hd t ht
    refine hd t ?_
    rw [replay_consumed _ _ _ hr]
    exact List.mem_append_left _ ht
  cases b with
  | true => exact key _ h2.1 h2.2.2
  | false => exact key _ h2.1 h2.2.2

/-! Type names -/

variable {η : Type}

/-- Names of special tokens. -/
def specialNames : List String := ["-eof-", "-eoi-", "-error-"]

/-- Special names and names of types of the lexers satisfy `N`. -/
structure NamesOk (N : String → Prop) (ls : List Lexer) : Prop where
  special : ∀ s ∈ specialNames, N s
  types : ∀ l ∈ ls, ∀ t ∈ l.types, N t.typeName

theorem groupLoop_named {N : String → Prop} {l : Lexer} (he : N "-error-") (hl : ∀ t ∈ l.types, N t.typeName) {src : Src} {content : List Nat}
    {pos : Int} {tts : TokenTypeSet} {e : Int} : ∀ (groups : List (Int × Int)) (g : Nat) (m : Bool) {t : Token} {n : Int},
    l.groupLoop src content pos tts e groups g m = some (.ok (some t, n)) → N t.typeName
  | [], g, m, t, n, h => by simp [Lexer.groupLoop] at h
  | (a, b) :: groups, g, m, t, n, h => by
    rw [Lexer.groupLoop] at h
    split at h
    · have key : ∀ (ty : Int) (name : String), N name → (if ty ≥ 0 ∧ tts &&& (1#64 <<< ty.toNat) = 0 then
          l.groupLoop src content pos tts e groups (g + 1) true
        else do
          let text ← Go.slice content a b
          let token : Token := { type := ty, typeName := name, content := text, pos := SrcPos.new (some src) (pos + a) }
          if ty = errorTokenType then return .error (Lexer.wrongTokenError token)
          else return .ok (some token, e)) = some (.ok (some t, n)) → N t.typeName := by
        intro ty name hn h
        split at h
        · exact groupLoop_named he hl _ _ _ h
        · rw [Option.bind_eq_bind, Option.bind_eq_some_iff] at h
          obtain ⟨text, -, h⟩ := h
          dsimp only at h
          split at h
          · cases h
          · cases h; exact hn
      cases hg : l.types[g]? with
      | none => rw [hg] at h; exact key _ _ he h
      | some x => rw [hg] at h; exact key _ _ (hl _ (List.mem_of_getElem? hg)) h
    · exact groupLoop_named he hl _ _ _ h

theorem fetch_named {N : String → Prop} {l : Lexer} (hs : ∀ s ∈ specialNames, N s) (hl : ∀ t ∈ l.types, N t.typeName) {q q' : SrcQueue}
    {tts : TokenTypeSet} {t : Token} {b : Bool} (h : l.fetch q tts = some ((q', .ok (some t)), b)) : N t.typeName := by
  unfold Lexer.fetch at h
  dsimp only at h
  split at h
  · split at h
    · cases h
      exact hs _ (by simp [specialNames, eoiToken])
    · cases h
  · rename_i src hsrc
    split at h
    · simp only [Option.bind_eq_bind, Option.bind_eq_some_iff] at h
      obtain ⟨⟨q1, _⟩, -, t', h1, h⟩ := h
      cases h
      cases h1
      exact hs _ (by simp [specialNames])
    · simp only [Option.bind_eq_bind, Option.bind_eq_some_iff] at h
      obtain ⟨r, h1, h⟩ := h
      cases r with
      | error e => cases h
      | ok r =>
        obtain ⟨tok, n⟩ := r
        cases h
        unfold Lexer.matchToken at h1
        rw [Option.bind_eq_bind, Option.bind_eq_some_iff] at h1
        obtain ⟨c, -, h1⟩ := h1
        split at h1
        · cases h1
        · cases h1
        · split at h1
          · cases h1
          · exact groupLoop_named (hs _ (by simp [specialNames])) hl _ _ _ h1

theorem nextOf_named {N : String → Prop} {l : Lexer} (hs : ∀ s ∈ specialNames, N s) (hl : ∀ t ∈ l.types, N t.typeName) {fuel : Nat} {q q' : SrcQueue}
    {tts : TokenTypeSet} {t : Token} (h : l.nextOf fuel q tts = .done (q', .ok (some t))) : N t.typeName := by
  unfold Lexer.nextOf at h
  split at h
  · cases h
  · induction fuel generalizing q with
    | zero => cases h
    | succ fuel ih =>
      rw [Lexer.nextOfLoop] at h
      split at h
      · cases h
      · cases h
      · rename_i h1
        cases h
        exact fetch_named hs hl h1
      · split at h
        · exact ih h
        · cases h

theorem fetchLoop_named {N : String → Prop} {ls : List Lexer} (hn : NamesOk N ls) {types : TokenTypeSet} {fuel : Nat} {src src' : SrcQueue}
    {e : Option LlxError} {t : Token} (h : fetchLoop types fuel ls src e = .done (src', .ok (some t))) : N t.typeName := by
  induction ls generalizing src e with
  | nil =>
    unfold fetchLoop at h
    split at h
    · split at h <;> cases h
    · cases h
  | cons l ls ih =>
    rw [fetchLoop, bindRun_done] at h
    obtain ⟨⟨q, r⟩, h1, h⟩ := h
    have hn' : NamesOk N ls := ⟨hn.special, fun l hl => hn.types l (List.mem_cons_of_mem _ hl)⟩
    rcases r with r | _ | r
    · exact ih hn' h
    · exact ih hn' h
    · cases h
      exact nextOf_named hn.special (hn.types l (List.mem_cons_self ..)) h1

end Verif.Proof
