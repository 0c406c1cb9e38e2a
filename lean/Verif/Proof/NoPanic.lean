/-
Lookahead and application of rules do not panic.
-/
import Verif.Spec.Panics
import Verif.Proof.LeftOver
import Verif.Proof.OneTokenParse
import Verif.Proof.Lookahead

namespace Verif.Proof

open Verif.Model Verif.Spec
open Verif.Model.Tree (bindRun)

variable {σ : Type}

theorem Fine.mono {α : Type} {P Q : α → Prop} {x : Run α} (h : Fine P x) (hq : ∀ a, P a → Q a) : Fine Q x := by
  cases x with
  | panic => exact h
  | timeout => exact h
  | done a => exact hq a h

theorem Fine.and {α : Type} {P Q : α → Prop} {x : Run α} (h : Fine P x) (hq : ∀ a, x = .done a → Q a) : Fine (fun a => P a ∧ Q a) x := by
  cases x with
  | panic => exact h
  | timeout => exact h
  | done a => exact ⟨h, hq a rfl⟩

theorem Fine.bind {α β : Type} {P : α → Prop} {Q : β → Prop} {x : Run α} {f : α → Run β} (h : Fine P x)
    (hf : ∀ a, P a → Fine Q (f a)) : Fine Q (bindRun x f) := by
  cases x with
  | panic => exact h
  | timeout => exact h
  | done a => exact hf a h

/-- There is no panic; the result, if it is not an error, has the property. -/
def FineRes {α : Type} (P : α → Prop) (x : PRes α) : Prop := Fine (fun r => ∀ a, r = .ok a → P a) x

theorem FineRes.bind {α β : Type} {P : α → Prop} {Q : β → Prop} {x : PRes α} {f : α → PRes β} (h : FineRes P x)
    (hf : ∀ a, P a → FineRes Q (f a)) : FineRes Q (bindRes x f) := by
  rcases x with _ | _ | (e | a)
  · exact h
  · exact h
  · exact fun b hb => by cases hb
  · exact hf a (h a rfl)

theorem FineRes.error {α : Type} {P : α → Prop} {e : PErr} : FineRes P (.done (.error e)) := fun a ha => by cases ha

theorem FineRes.ok {α : Type} {P : α → Prop} {a : α} (h : P a) : FineRes P (.done (.ok a)) := fun b hb => by cases hb; exact h

theorem FineRes.and {α : Type} {P Q : α → Prop} {x : PRes α} (h : FineRes P x) (hq : ∀ a, x = .done (.ok a) → Q a) :
    FineRes (fun a => P a ∧ Q a) x := by
  rcases x with _ | _ | (e | a)
  · exact h
  · exact h
  · exact .error
  · exact .ok ⟨h a rfl, hq a rfl⟩

/-! ### Rules -/

/-- A rule leads to an existing state and opens an existing node. -/
def GoodRule (g : Grammar) (r : Rule) : Prop :=
  (r.state = repeatState ∨ r.state = finalState ∨ ∃ (n : Nat) (gs : GState), r.state = n ∧ g.tables.states[n]? = some gs) ∧
  (r.node = sameNode ∨ ∃ (n f : Nat) (gs : GState), r.node = n ∧ g.firsts[n]? = some f ∧ g.tables.states[f]? = some gs)

/-- The top frame is not at the end of its node. -/
def TopOpen (l : List Frame) : Prop := ∀ f, l.head? = some f → f.state ≠ finalState

/-- Frames with existing states, the top one is not at the end. -/
def StackOk (g : Grammar) (l : List Frame) : Prop := (∀ f ∈ l, FrameOk g f) ∧ TopOpen l

theorem StackOk.nil {g : Grammar} : StackOk g [] := ⟨by simp, fun f h => by cases h⟩

theorem StackOk.top {g : Grammar} {f : Frame} {l : List Frame} (h : StackOk g (f :: l)) :
    ∃ (n : Nat) (gs : GState), f.state = n ∧ g.tables.states[n]? = some gs ∧ f.types = gs.types :=
  (h.1 f (by simp)).resolve_left (h.2 f rfl)

theorem popFrames_open (l : List Frame) : TopOpen (popFrames l) := by
  induction l with
  | nil => intro f h; cases h
  | cons f l ih =>
    rw [popFrames]
    split
    · exact ih
    · rename_i h; intro f' hf'; cases hf'; exact h

theorem moveFrame_good {g : Grammar} {r : Rule} (hr : GoodRule g r) {f : Frame} (hf : FrameOk g f) :
    ∃ f', moveFrame g r f = some f' ∧ FrameOk g f' := by
  rw [moveFrame]
  rcases hr.1 with h | h | ⟨n, gs, h1, h2⟩
  · rw [if_pos h]; exact ⟨f, rfl, hf⟩
  · rw [if_neg (by rw [h]; decide), if_pos h]; exact ⟨_, rfl, .inl h⟩
  · rw [if_neg (by rw [h1]; unfold repeatState; omega), if_neg (by rw [h1]; unfold finalState; omega), h1]
    have : Go.index g.tables.states (n : Int) = some gs := by simp [Go.index, h2]
    rw [this]
    exact ⟨_, rfl, .inr ⟨n, gs, rfl, h2, rfl⟩⟩

theorem applyQuiet_good {g : Grammar} {r : Rule} (hr : GoodRule g r) (tok : Option Token) {f : Frame} {l : List Frame}
    (h : StackOk g (f :: l)) : ∃ l', applyQuiet g tok r (f :: l) = some (l', consumes r tok) ∧ StackOk g l' := by
  obtain ⟨f', h1, h2⟩ := moveFrame_good hr (h.1 f (by simp))
  rw [applyQuiet, h1, Option.bind_some]
  rcases hr.2 with h3 | ⟨n, first, gs, h3, h4, h5⟩
  · rw [if_neg (by simpa using h3), Option.map_some]
    refine ⟨_, rfl, fun x hx => ?_, popFrames_open _⟩
    rcases List.mem_cons.mp (popFrames_mem _ x hx) with rfl | hx
    · exact h2
    · exact h.1 x (by simp [hx])
  · rw [if_pos (by rw [h3]; unfold sameNode; omega), if_pos (by omega), h3]
    simp only [Int.toNat_natCast, h4, Option.bind_some, h5, Option.map_some]
    refine ⟨_, rfl, fun x hx => ?_, popFrames_open _⟩
    rcases List.mem_cons.mp (popFrames_mem _ x hx) with rfl | hx
    · exact .inr ⟨first, gs, rfl, h5, rfl⟩
    · rcases List.mem_cons.mp hx with rfl | hx
      · exact h2
      · exact h.1 x (by simp [hx])

theorem literal_lt {g : Grammar} {text : List Nat} {i : Nat} (h : g.literal text = some i) : ∃ t, g.tokens[i]? = some t := by
  unfold Grammar.literal at h
  have h1 := List.mem_filter.mp (List.mem_of_getLast? h)
  have h2 := List.mem_range.mp h1.1
  exact ⟨_, List.getElem?_eq_getElem h2⟩

/-- A token with known type has its keys, `anyToken` is one of them. -/
theorem keys_known {g : Grammar} (upper : List Nat → List Nat) {t : Token} (h : t.type < g.tokens.length) :
    ∃ keys, possibleRuleKeys g upper (some t) = some keys ∧ anyToken ∈ keys := by
  unfold possibleRuleKeys
  dsimp only
  have htf : ∃ tf, (if 0 ≤ t.type then (g.tokens[t.type.toNat]?).map (·.flags) else some ({ noLiterals := true } : TokenFlags)) = some tf := by
    split
    · rw [List.getElem?_eq_getElem (show t.type.toNat < g.tokens.length by omega)]; exact ⟨_, rfl⟩
    · exact ⟨_, rfl⟩
  obtain ⟨tf, h1⟩ := htf
  rw [h1, Option.bind_some]
  split
  · exact ⟨_, rfl, by simp⟩
  · rename_i i hi
    have : ∃ text, g.literal text = some i := by
      split at hi
      · cases hi
      · exact ⟨_, hi⟩
    obtain ⟨text, hl⟩ := this
    obtain ⟨lt, h2⟩ := literal_lt hl
    rw [h2, Option.map_some]
    refine ⟨_, rfl, ?_⟩
    split <;> simp

theorem firstRules_from (m : Int → List Rule) (keys : List Int) :
    (∃ k ∈ keys, firstRules m keys = m k) ∨ (firstRules m keys = [] ∧ ∀ k ∈ keys, m k = []) := by
  unfold firstRules
  cases h : (keys.map m).find? (· ≠ []) with
  | none =>
    right
    refine ⟨rfl, fun k hk => ?_⟩
    have := List.find?_eq_none.mp h (m k) (List.mem_map_of_mem hk)
    simpa using this
  | some l =>
    left
    obtain ⟨k, hk, h1⟩ := List.mem_map.mp (List.mem_of_find?_eq_some h)
    exact ⟨k, hk, h1.symm⟩

/-- A token that may be met: no token or a token of a known type. -/
def OkTok (g : Grammar) (tok : Option Token) : Prop := ∀ t, tok = some t → t.type < g.tokens.length

/-- The table has a conflict. -/
def Conflicts (m : Table) : Prop := ∃ s k, 1 < (m s k).length

theorem sound_good {g : Grammar} {m : Table} (h : SoundTables g m) {s : Nat} {k : Int} {r : Rule} (hr : r ∈ m s k) : GoodRule g r := by
  refine ⟨.inr (h.closed.1 s k r hr), ?_⟩
  rcases h.nodes s k r hr with h1 | ⟨n, f, h1, h2⟩
  · exact .inl h1
  · obtain ⟨gs, h3⟩ := h.closed.2 n f h2
    exact .inr ⟨n, f, gs, h1, h2, h3⟩

theorem findRules_good {g : Grammar} {m : Table} (h : SoundTables g m) (upper : List Nat → List Nat) {tok : Option Token} (ht : OkTok g tok)
    {s : Nat} {gs : GState} (hs : g.tables.states[s]? = some gs) :
    ∃ rules, findRules g upper tok s = some rules ∧ (∀ r ∈ rules, GoodRule g r) ∧ (rules = [] → m s anyToken = []) ∧
      (1 < rules.length → Conflicts m) := by
  have hi : Go.index g.tables.states (s : Int) = some gs := by simp [Go.index, hs]
  have hkeys : ∀ keys, anyToken ∈ keys → ∃ rules, findRulesBy g.tables gs keys = some rules ∧ (∀ r ∈ rules, GoodRule g r) ∧
      (rules = [] → m s anyToken = []) ∧ (1 < rules.length → Conflicts m) := by
    intro keys hany
    refine ⟨_, h.means.find s gs hs keys, ?_⟩
    rcases firstRules_from (m s) keys with ⟨k, hk, h1⟩ | ⟨h1, h2⟩
    · rw [h1]
      refine ⟨fun r hr => sound_good h hr, fun h2 => ?_, fun h2 => ⟨s, k, h2⟩⟩
      by_contra hne
      have : firstRules (m s) keys ≠ [] := by
        unfold firstRules
        cases hf : (keys.map (m s)).find? (· ≠ []) with
        | none => exact absurd (by simpa using List.find?_eq_none.mp hf (m s anyToken) (List.mem_map_of_mem hany)) hne
        | some l => simpa using List.find?_some hf
      exact this (h1.trans h2)
    · rw [h1]
      exact ⟨by simp, fun _ => h2 _ hany, by simp⟩
  unfold findRules
  rw [hi, Option.bind_some]
  cases tok with
  | none => exact hkeys [anyToken] (by simp)
  | some t =>
    dsimp only
    split
    · refine ⟨_, rfl, ?_, by simp, by simp⟩
      intro r hr
      rw [List.mem_singleton.mp hr]
      exact ⟨.inl rfl, .inl rfl⟩
    · obtain ⟨keys, h1, h2⟩ := keys_known upper (ht t rfl)
      rw [h1, Option.bind_some]
      exact hkeys keys h2

/-! ### Lookahead -/

/-- A branch with good stack and rules. -/
def BranchSafe (g : Grammar) (b : Branch) : Prop := StackOk g b.stack ∧ ∀ r ∈ b.rules, GoodRule g r

/-- All pointers of `resolveConflict` are valid; `n` branches are being iterated. -/
structure RCOk (g : Grammar) (n : Nat) (rc : RC) : Prop where
  store : ∀ b ∈ rc.store, BranchSafe g b
  pos : 0 < rc.store.length
  cur : ∀ p ∈ rc.cur, p < rc.store.length
  moved : ∀ l, rc.moved = some l → ∀ p ∈ l, p < rc.store.length
  q : ∀ p ∈ rc.q, p < rc.store.length
  left : ∀ p, rc.lastSuccess = some p → p < rc.store.length
  dead : ∀ p, rc.lastError = some p → p < rc.store.length
  len : rc.len ≤ rc.cur.length
  iter : n ≤ (rc.moved.getD rc.cur).length

/-- There is something to choose from. -/
def Chooses (rc : RC) : Prop := rc.len ≠ 0 ∨ rc.lastSuccess.isSome ∨ rc.lastError.isSome

/-- All branches have rules. -/
def RuledAll (rc : RC) : Prop := ∀ b ∈ rc.store, b.rules ≠ []

theorem append_fine {g : Grammar} {n : Nat} {grow : Nat → Nat} {rc : RC} {b : Nat} (h : RCOk g n rc) (hb : b < rc.store.length) :
    RCOk g n (rc.append grow b) ∧ Chooses (rc.append grow b) ∧ (rc.append grow b).q = rc.q := by
  obtain ⟨h1, h2, h3, h4⟩ := append_rest grow rc b
  have h5 : (rc.append grow b).len ≠ 0 := by unfold RC.append; split <;> simp
  refine ⟨⟨by rw [h1]; exact h.store, by rw [h1]; exact h.pos, ?_, ?_, by rw [h1, h2]; exact h.q, by rw [h1, h3]; exact h.left,
    by rw [h1, h4]; exact h.dead, (append_take h.len).2, ?_⟩, .inl h5, h2⟩
  · rw [h1]
    unfold RC.append
    split
    · intro p hp
      rcases List.mem_or_eq_of_mem_set hp with hp | rfl
      · exact h.cur p hp
      · exact hb
    · intro p hp
      dsimp only at hp
      rcases List.mem_append.mp hp with hp | hp
      · exact h.cur p (List.mem_of_mem_take hp)
      · rcases List.mem_cons.mp hp with rfl | hp
        · exact hb
        · rw [(List.mem_replicate.mp hp).2]; exact h.pos
  · rw [h1]
    unfold RC.append
    split
    · exact h.moved
    · intro l hl p hp
      cases hl
      cases hm : rc.moved with
      | none => rw [hm] at hp; exact h.cur p hp
      | some l => rw [hm] at hp; exact h.moved l hm p hp
  · unfold RC.append
    split
    · dsimp only
      have := h.iter
      cases hm : rc.moved with
      | none => rw [hm] at this; simpa using this
      | some l => rw [hm] at this; exact this
    · exact h.iter

theorem RCOk.update {g : Grammar} {n : Nat} {rc : RC} (h : RCOk g n rc) {b : Nat} {br : Branch} (hb : BranchSafe g br) :
    RCOk g n { rc with store := rc.store.set b br } := by
  refine ⟨fun x hx => ?_, by simpa using h.pos, by simpa using h.cur, by simpa using h.moved, by simpa using h.q, by simpa using h.left,
    by simpa using h.dead, h.len, h.iter⟩
  rcases List.mem_or_eq_of_mem_set hx with hx | rfl
  · exact h.store x hx
  · exact hb

/-- One rule is used by a branch. -/
theorem apply_fine {env : PEnv σ} {tok : Option Token} {n : Nat} {rc : RC} {b : Nat} {br : Branch} {r : Rule} (h : RCOk env.g n rc)
    (hb : rc.store[b]? = some br) (hne : br.stack ≠ []) (hr : GoodRule env.g r) :
    ∃ rc' st, rc.apply env tok b r = some rc' ∧ rc'.store = rc.store.set b ⟨st, br.rules ++ [r]⟩ ∧ RCOk env.g n rc' ∧
      (rc'.q ≠ [] ∨ Chooses rc') ∧ (rc.q ≠ [] → rc'.q ≠ []) ∧ (Chooses rc → Chooses rc') := by
  have hblt := (List.getElem?_eq_some_iff.mp hb).1
  have hbok := h.store br (List.mem_of_getElem? hb)
  cases hs : br.stack with
  | nil => exact absurd hs hne
  | cons f l =>
    have hst := hbok.1
    rw [hs] at hst
    obtain ⟨l', h1, h2⟩ := applyQuiet_good hr tok hst
    unfold RC.apply
    rw [hb, Option.bind_some, hs, h1, Option.map_some]
    dsimp only
    have hnew : BranchSafe env.g ⟨l', br.rules ++ [r]⟩ := by
      refine ⟨h2, fun x hx => ?_⟩
      rcases List.mem_append.mp hx with hx | hx
      · exact hbok.2 x hx
      · rw [List.mem_singleton.mp hx]; exact hr
    have hup := h.update (b := b) hnew
    have hlt : b < ({ rc with store := rc.store.set b ⟨l', br.rules ++ [r]⟩ } : RC).store.length := by simpa using hblt
    split
    · obtain ⟨h3, h4, h5⟩ := append_fine (grow := env.grow) hup hlt
      exact ⟨_, l', rfl, (append_rest _ _ _).1, h3, .inr h4, fun hq => by rw [h5]; exact hq, fun _ => h4⟩
    · split
      · refine ⟨_, l', rfl, rfl, ⟨hup.store, hup.pos, hup.cur, hup.moved, hup.q, fun p hp => ?_, hup.dead, hup.len, hup.iter⟩, .inr (.inr (.inl rfl)),
          fun hq => hq, fun _ => .inr (.inl rfl)⟩
        cases hp; exact hlt
      · refine ⟨_, l', rfl, rfl, ⟨hup.store, hup.pos, hup.cur, hup.moved, fun p hp => ?_, hup.left, hup.dead, hup.len, hup.iter⟩, .inl (by simp),
          fun _ => by simp, fun h => h⟩
        rcases List.mem_append.mp hp with hp | hp
        · exact hup.q p hp
        · rw [List.mem_singleton.mp hp]; exact hlt

theorem applyAll_fine {env : PEnv σ} {tok : Option Token} {n : Nat} (l : List (Nat × Rule)) {rc : RC} (h : RCOk env.g n rc)
    (hl : ∀ x ∈ l, GoodRule env.g x.2 ∧ ∃ br, rc.store[x.1]? = some br ∧ br.stack ≠ []) (hnd : (l.map (·.1)).Nodup) (hne : l ≠ []) :
    ∃ rc', rc.applyAll env tok l = some rc' ∧ RCOk env.g n rc' ∧ (rc'.q ≠ [] ∨ Chooses rc') ∧ rc'.store.length = rc.store.length ∧
      ∀ i b, rc'.store[i]? = some b → b.rules = [] → i ∉ l.map (·.1) ∧ rc.store[i]? = some b := by
  induction l generalizing rc with
  | nil => exact absurd rfl hne
  | cons x l ih =>
    obtain ⟨p, r⟩ := x
    obtain ⟨hr, br, hb, hbs⟩ := hl (p, r) (by simp)
    obtain ⟨rc1, st, h1, h2, h3, h4, h5, h6⟩ := apply_fine (tok := tok) h hb hbs hr
    rw [List.map_cons, List.nodup_cons] at hnd
    rw [RC.applyAll, h1, Option.bind_some]
    have hp := (List.getElem?_eq_some_iff.mp hb).1
    have hone : ∀ i b, rc1.store[i]? = some b → b.rules = [] → i ≠ p ∧ rc.store[i]? = some b := by
      intro i b hi hbr
      rw [h2, List.getElem?_set] at hi
      split at hi
      · rename_i hpi
        cases hi
        simp at hbr
      · rename_i hpi
        exact ⟨fun he => hpi he.symm, hi⟩
    cases l with
    | nil =>
      refine ⟨rc1, by rw [RC.applyAll], h3, h4, by rw [h2]; simp, fun i b hi hbr => ?_⟩
      obtain ⟨h7, h8⟩ := hone i b hi hbr
      exact ⟨by simpa using h7, h8⟩
    | cons y l =>
      obtain ⟨rc2, h7, h8, h9, h10, h11⟩ := ih h3 (fun x hx => by
        obtain ⟨hr', br', hb', hs'⟩ := hl x (by simp [List.mem_cons.mp hx])
        refine ⟨hr', br', ?_, hs'⟩
        rw [h2, List.getElem?_set, if_neg]
        · exact hb'
        · rintro rfl
          exact hnd.1 (List.mem_map.mpr ⟨x, hx, rfl⟩)) hnd.2 (by simp)
      refine ⟨rc2, h7, h8, h9, by rw [h10, h2]; simp, fun i b hi hbr => ?_⟩
      obtain ⟨h12, h13⟩ := h11 i b hi hbr
      obtain ⟨h14, h15⟩ := hone i b h13 hbr
      refine ⟨?_, h15⟩
      rw [List.map_cons, List.mem_cons, not_or]
      exact ⟨h14, h12⟩

theorem zip_fst {α β : Type} : ∀ (l : List α) (m : List β), l.length = m.length → (l.zip m).map (·.1) = l
  | [], [], _ => rfl
  | a :: l, b :: m, h => by simp only [List.zip_cons_cons, List.map_cons]; rw [zip_fst l m (by simpa using h)]

/-- Branches have rules or there is only one branch that has to be split at once. -/
def RuledOrFirst (env : PEnv σ) (tok : Option Token) (rc : RC) : Prop :=
  RuledAll rc ∨ ∃ b top l, rc.store = [b] ∧ rc.q = [0] ∧ b.stack = top :: l ∧
    ∃ r r' rs, findRules env.g env.upper tok top.state = some (r :: r' :: rs)

theorem drain_fine {env : PEnv σ} {m : Table} (hg : SoundTables env.g m) {tok : Option Token} (ht : OkTok env.g tok) {n : Nat} (fuel : Nat) {rc : RC}
    (h : RCOk env.g n rc) (hp : rc.q ≠ [] ∨ Chooses rc) (hr : RuledOrFirst env tok rc) :
    Fine (fun rc' => RCOk env.g n rc' ∧ Chooses rc' ∧ RuledAll rc' ∧ rc'.q = []) (rc.drain env tok fuel) := by
  induction fuel generalizing rc with
  | zero => rw [RC.drain]; trivial
  | succ fuel ih =>
    rw [RC.drain]
    cases hq : rc.q with
    | nil =>
      refine ⟨h, hp.resolve_left (by simp [hq]), hr.resolve_right ?_, hq⟩
      rintro ⟨_, _, _, -, h2, -⟩
      rw [hq] at h2; cases h2
    | cons b q =>
      dsimp only
      have hb := h.q b (by rw [hq]; simp)
      have h' : RCOk env.g n { rc with q := q } :=
        ⟨h.store, h.pos, h.cur, h.moved, fun p hp => h.q p (by rw [hq]; simp [hp]), h.left, h.dead, h.len, h.iter⟩
      rw [List.getElem?_eq_getElem hb, orPanic]
      have hget : rc.store[b]? = some rc.store[b] := List.getElem?_eq_getElem hb
      generalize hbr : rc.store[b] = br at *
      have hmem := List.mem_of_getElem? hget
      have hbok := h.store br hmem
      have hfirst : ∀ {rules}, (∀ top l, br.stack = top :: l → findRules env.g env.upper tok top.state = some rules) → br.stack ≠ [] → rules.length < 2 → RuledAll rc := by
        intro rules hru hne hl
        refine hr.resolve_right ?_
        rintro ⟨b0, top, l, h1, h2, h3, r, r', rs, h4⟩
        rw [h1, List.mem_singleton] at hmem
        subst hmem
        rw [hru top l h3] at h4
        cases h4
        simp only [List.length_cons] at hl
        omega
      cases hst : br.stack with
      | nil =>
        dsimp only
        refine ih ⟨h'.store, h'.pos, h'.cur, h'.moved, h'.q, fun p hp => by cases hp; exact hb, h'.dead, h'.len, h'.iter⟩ (.inr (.inr (.inl rfl)))
          (.inl (hr.resolve_right ?_))
        rintro ⟨b0, top, l, h1, h2, h3, -⟩
        rw [h1, List.mem_singleton] at hmem
        subst hmem
        rw [hst] at h3; cases h3
      | cons top l =>
        dsimp only
        have hst' := hbok.1
        rw [hst] at hst'
        obtain ⟨sn, gs, e1, e2, -⟩ := hst'.top
        rw [e1]
        obtain ⟨rules, h1, h2, -, -⟩ := findRules_good hg env.upper ht e2
        rw [h1, orPanic]
        have hlook : ∀ top' l', br.stack = top' :: l' → findRules env.g env.upper tok top'.state = some rules := by
          intro top' l' he
          rw [hst] at he
          cases he
          rw [e1]; exact h1
        match rules, h1, h2, hlook with
        | [], h1, h2, hlook =>
          exact ih ⟨h'.store, h'.pos, h'.cur, h'.moved, h'.q, h'.left, fun p hp => by cases hp; exact hb, h'.len, h'.iter⟩ (.inr (.inr (.inr rfl)))
            (.inl (hfirst hlook (by rw [hst]; simp) (by simp)))
        | [r], h1, h2, hlook =>
          dsimp only
          have hru := hfirst hlook (by rw [hst]; simp) (by simp)
          obtain ⟨rc1, st, h3, h4, h5, h6, -, -⟩ := apply_fine (rc := { rc with q := q }) (tok := tok) h' hget (by rw [hst]; simp) (h2 r (by simp))
          rw [h3, orPanic]
          refine ih h5 h6 (.inl fun x hx => ?_)
          rw [h4] at hx
          rcases List.mem_or_eq_of_mem_set hx with hx | rfl
          · exact hru x hx
          · simp
        | r :: r' :: rs, h1, h2, hlook =>
          dsimp only
          generalize hrr : r :: r' :: rs = rules at *
          have hlen : 2 ≤ rules.length := by rw [← hrr]; simp
          rw [RC.split]
          dsimp only
          have hbl : (b :: (List.range (rules.length - 1)).map fun i => rc.store.length + i).length = rules.length := by
            simp only [List.length_cons, List.length_map, List.length_range]; omega
          have hz := zip_fst (b :: (List.range (rules.length - 1)).map fun i => rc.store.length + i) rules hbl
          have hgetall : ∀ p ∈ b :: (List.range (rules.length - 1)).map fun i => rc.store.length + i,
              (rc.store ++ List.replicate (rules.length - 1) br)[p]? = some br := by
            intro p hp
            rcases List.mem_cons.mp hp with rfl | hp
            · rw [List.getElem?_append_left hb]; exact hget
            · obtain ⟨i, hi, rfl⟩ := List.mem_map.mp hp
              rw [List.getElem?_append_right (by omega), List.getElem?_replicate, if_pos (by have := List.mem_range.mp hi; omega)]
          have hlt : rc.store.length ≤ (rc.store ++ List.replicate (rules.length - 1) br).length := by simp
          obtain ⟨rc1, h3, h4, h5, h6, h7⟩ := applyAll_fine (env := env) (tok := tok) (n := n)
            ((b :: (List.range (rules.length - 1)).map fun i => rc.store.length + i).zip rules)
            (rc := { rc with q := q, store := rc.store ++ List.replicate (rules.length - 1) br })
            ⟨fun x hx => by
                rcases List.mem_append.mp hx with hx | hx
                · exact h.store x hx
                · rw [(List.mem_replicate.mp hx).2]; exact hbok,
              by have := h.pos; dsimp only; omega, fun p hp => lt_of_lt_of_le (h'.cur p hp) hlt, fun l hl p hp => lt_of_lt_of_le (h'.moved l hl p hp) hlt,
              fun p hp => lt_of_lt_of_le (h'.q p hp) hlt, fun p hp => lt_of_lt_of_le (h'.left p hp) hlt,
              fun p hp => lt_of_lt_of_le (h'.dead p hp) hlt, h'.len, h'.iter⟩
            (fun x hx => by
              have h8 := List.of_mem_zip hx
              exact ⟨h2 _ h8.2, br, hgetall _ h8.1, by rw [hst]; simp⟩)
            (by
              rw [hz, List.nodup_cons]
              refine ⟨fun hm => ?_, ?_⟩
              · obtain ⟨i, -, hi⟩ := List.mem_map.mp hm
                omega
              · refine List.Nodup.map (fun a b hab => ?_) List.nodup_range
                simpa using hab)
            (by rw [← hrr]; simp)
          rw [h3, orPanic]
          refine ih h4 h5 (.inl fun x hx hxr => ?_)
          obtain ⟨i, hi⟩ := List.mem_iff_getElem?.mp hx
          obtain ⟨h8, h9⟩ := h7 i x hi hxr
          rw [hz] at h8
          dsimp only at h9
          rcases hr with hr | ⟨b0, top', l', e3, e4, -⟩
          · rcases List.mem_append.mp (List.mem_of_getElem? h9) with h10 | h10
            · exact hr x h10 hxr
            · rw [(List.mem_replicate.mp h10).2] at hxr
              exact hr br hmem hxr
          · rw [hq] at e4
            cases e4
            have h10 := (List.getElem?_eq_some_iff.mp h9).1
            rw [e3] at h10 h8
            simp only [List.length_append, List.length_replicate, List.length_singleton] at h10
            apply h8
            rcases Nat.eq_zero_or_pos i with rfl | hi0
            · simp
            · refine List.mem_cons_of_mem _ (List.mem_map.mpr ⟨i - 1, List.mem_range.mpr (by omega), ?_⟩)
              simp; omega

theorem overBranches_fine {env : PEnv σ} {m : Table} (hg : SoundTables env.g m) {tok : Option Token} (ht : OkTok env.g tok) {n : Nat} (fuel count i : Nat) {rc : RC}
    (h : RCOk env.g n rc) (hn : i + count ≤ n) (hq : rc.q = []) (h0 : count = 0 → RuledAll rc ∧ Chooses rc)
    (hr : count ≠ 0 → ∀ b, (rc.moved.getD rc.cur)[i]? = some b → RuledOrFirst env tok { rc with q := [b] }) :
    Fine (fun rc' => RCOk env.g 0 rc' ∧ Chooses rc' ∧ RuledAll rc' ∧ rc'.q = []) (rc.overBranches env tok fuel count i) := by
  induction count generalizing i rc with
  | zero =>
    rw [RC.overBranches]
    exact ⟨⟨h.store, h.pos, h.cur, h.moved, h.q, h.left, h.dead, h.len, Nat.zero_le _⟩, (h0 rfl).2, (h0 rfl).1, hq⟩
  | succ count ih =>
    rw [RC.overBranches]
    have hlt : i < (rc.moved.getD rc.cur).length := by have := h.iter; omega
    have hget := List.getElem?_eq_getElem hlt
    rw [hget, orPanic]
    generalize (rc.moved.getD rc.cur)[i] = b at *
    have hb : b < rc.store.length := by
      have := List.mem_of_getElem? hget
      cases hm : rc.moved with
      | none => rw [hm] at this; exact h.cur b this
      | some l => rw [hm] at this; exact h.moved l hm b this
    rw [hq, List.nil_append]
    refine Fine.bind (drain_fine hg ht fuel (n := n) (rc := { rc with q := [b] }) ⟨h.store, h.pos, h.cur, h.moved,
      fun p hp => by rw [List.mem_singleton.mp hp]; exact hb, h.left, h.dead, h.len, h.iter⟩ (.inl (by simp)) (hr (by simp) b hget)) ?_
    rintro rc' ⟨h1, h2, h3, h4⟩
    exact ih (i + 1) h1 (by omega) h4 (fun _ => ⟨h3, h2⟩) (fun _ _ _ => .inl h3)

theorem round_fine {env : PEnv σ} {m : Table} (hg : SoundTables env.g m) {tok : Option Token} (ht : OkTok env.g tok) (fuel : Nat) {rc : RC}
    (h : RCOk env.g 0 rc) (hl : rc.len ≠ 0) (hq : rc.q = [])
    (hr : RuledAll rc ∨ ∃ b top l, rc.store = [b] ∧ rc.cur = [0] ∧ b.stack = top :: l ∧
      ∃ r r' rs, findRules env.g env.upper tok top.state = some (r :: r' :: rs)) :
    Fine (fun rc' => RCOk env.g 0 rc' ∧ Chooses rc' ∧ RuledAll rc' ∧ rc'.q = []) (rc.round env tok fuel) := by
  rw [RC.round]
  refine overBranches_fine hg ht fuel rc.len 0 (n := rc.len) ⟨h.store, h.pos, h.cur, fun l hl => (by cases hl), h.q, fun p hp => (by cases hp), h.dead,
    Nat.zero_le _, h.len⟩ (by omega) hq (fun h0 => absurd h0 hl) (fun _ b hb => ?_)
  rcases hr with hr | ⟨b0, top, l, h1, h2, h3⟩
  · exact .inl hr
  · refine .inr ⟨b0, top, l, h1, ?_, h3⟩
    dsimp only [Option.getD_none] at hb
    rw [h2] at hb
    cases hb
    rfl

theorem chosen_fine {g : Grammar} {rc : RC} (h : RCOk g 0 rc) (hc : Chooses rc) (hr : RuledAll rc) :
    ∃ rules, rc.chosen = some rules ∧ rules ≠ [] ∧ ∀ r ∈ rules, GoodRule g r := by
  have hend : ∀ p, p < rc.store.length → ∃ rules, ((some p : Option Nat).bind fun b => (rc.store[b]?).map (·.rules)) = some rules ∧ rules ≠ [] ∧
      ∀ r ∈ rules, GoodRule g r := by
    intro p h2
    rw [Option.bind_some, List.getElem?_eq_getElem h2, Option.map_some]
    exact ⟨_, rfl, hr _ (List.getElem_mem h2), (h.store _ (List.getElem_mem h2)).2⟩
  unfold RC.chosen
  by_cases hl : rc.len ≠ 0
  · rw [if_pos hl]
    have h1 := h.len
    have h2 : 0 < rc.cur.length := by omega
    rw [List.getElem?_eq_getElem h2]
    exact hend _ (h.cur _ (List.getElem_mem h2))
  · rw [if_neg hl]
    cases hs : rc.lastSuccess with
    | some b => exact hend b (h.left b hs)
    | none =>
      rcases hc with hc | hc | hc
      · exact absurd hc hl
      · rw [hs] at hc; cases hc
      · obtain ⟨p, hp⟩ := Option.isSome_iff_exists.mp hc
        dsimp only
        rw [hp]
        exact hend p (h.dead p hp)

theorem types_coversState {g : Grammar} {rc : RC} (h : RCOk g 0 rc) (ht : rc.types ≠ 0) : CoversState g rc.types := by
  have key : ∀ (l : List Nat) (a : TokenTypeSet), (a = 0 ∨ CoversState g a) →
      l.foldl (fun (tts : TokenTypeSet) (b : Nat) =>
        match (rc.store[b]?).bind (·.stack.head?) with
        | some top => tts ||| top.types
        | none => tts) a = 0 ∨ CoversState g (l.foldl (fun (tts : TokenTypeSet) (b : Nat) =>
        match (rc.store[b]?).bind (·.stack.head?) with
        | some top => tts ||| top.types
        | none => tts) a) := by
    intro l
    induction l with
    | nil => intro a ha; exact ha
    | cons b l ih =>
      intro a ha
      rw [List.foldl_cons]
      apply ih
      split
      · rename_i top htop
        obtain ⟨br, h1, h2⟩ := Option.bind_eq_some_iff.mp htop
        have hst := (h.store br (List.mem_of_getElem? h1)).1
        obtain ⟨l', hl'⟩ : ∃ l', br.stack = top :: l' := by
          cases hs : br.stack with
          | nil => rw [hs] at h2; cases h2
          | cons x l' => rw [hs] at h2; cases h2; exact ⟨l', rfl⟩
        rw [hl'] at hst
        obtain ⟨n, gs, -, h3, h4⟩ := hst.top
        by_cases hz : gs.types = 0
        · rw [h4, hz, show a ||| (0 : TokenTypeSet) = a from BitVec.or_zero]; exact ha
        · refine .inr ⟨gs, List.mem_of_getElem? h3, hz, fun i hi => ?_⟩
          rw [h4, BitVec.getLsbD_or, hi, Bool.or_true]
      · exact ha
  exact (key _ 0 (.inl rfl)).resolve_left ht

/-! ### The parser -/

variable {env : PEnv σ} {m : Table} {S : σ → Prop} {Given : Token → Prop}

/-- A token from the source. -/
def GotTok (Given : Token → Prop) (tok : Option Token) : Prop := ∃ t, tok = some t ∧ Given t

/-- State of the parser between steps. -/
structure PCOk (env : PEnv σ) (S : σ → Prop) (Given : Token → Prop) (pc : PC σ) : Prop where
  src : S pc.src
  tokens : ∀ t ∈ pc.tokens, t = none ∧ env.fullSource = false ∨ GotTok Given t
  applied : ∀ r ∈ pc.applied, GoodRule env.g r
  stack : StackOk env.g (pc.stack.map (·.toFrame))

theorem nextLoop_fine (ha : Answers env S Given) (types : TokenTypeSet) (fuel : Nat) {pc : PC σ} (h : PCOk env S Given pc) :
    Fine (fun r => PCOk env S Given r.1 ∧ r.1.stack = pc.stack ∧ ∀ tok, r.2 = .ok tok → (tok = none ∧ ¬ AlwaysAnswers env S types) ∨ GotTok Given tok)
      (nextLoop env types fuel pc) := by
  induction fuel generalizing pc with
  | zero => rw [nextLoop]; trivial
  | succ fuel ih =>
    rw [nextLoop]
    refine Fine.bind (Fine.and (ha.pull pc.src types h.src) (Q := fun r => r.2 = .ok none → ¬ AlwaysAnswers env S types) ?_) ?_
    · rintro ⟨q, r⟩ hp hr hal
      dsimp only at hr
      subst hr
      exact hal _ _ h.src hp
    · rintro ⟨q, r⟩ ⟨⟨h1, h2⟩, h3⟩
      cases r with
      | error e => exact ⟨⟨h1, h.tokens, h.applied, h.stack⟩, rfl, fun tok ht => by cases ht⟩
      | ok tok =>
        dsimp only
        split
        · exact ih ⟨h1, h.tokens, h.applied, h.stack⟩
        · refine ⟨⟨h1, h.tokens, h.applied, h.stack⟩, rfl, fun tok' ht => ?_⟩
          cases ht
          cases tok with
          | none => exact .inl ⟨rfl, h3 rfl⟩
          | some t => exact .inr ⟨t, rfl, h2 t rfl⟩

theorem nextToken_fine (ha : Answers env S Given) (types : TokenTypeSet) (fuel : Nat) {pc : PC σ} (h : PCOk env S Given pc) :
    Fine (fun r => PCOk env S Given r.1 ∧ r.1.stack = pc.stack ∧ ∀ tok, r.2 = .ok tok → (tok = none ∧ (¬ AlwaysAnswers env S types ∨ pc.tokens ≠ [] ∧ env.fullSource = false)) ∨ GotTok Given tok)
      (nextToken env fuel pc types) := by
  rw [nextToken]
  cases ht : pc.tokens with
  | nil => exact Fine.mono (nextLoop_fine ha types fuel h) fun r hr => ⟨hr.1, hr.2.1, fun tok ht => (hr.2.2 tok ht).imp_left fun h => ⟨h.1, .inl h.2⟩⟩
  | cons t ts =>
    refine ⟨⟨h.src, fun x hx => h.tokens x (by rw [ht]; simp [hx]), h.applied, h.stack⟩, rfl, fun tok he => ?_⟩
    cases he
    exact (h.tokens _ (by rw [ht]; simp)).imp_left fun h => ⟨h.1, .inr ⟨by simp, h.2⟩⟩

theorem GotTok.ok (ha : Answers env S Given) {tok : Option Token} (h : GotTok Given tok) : OkTok env.g tok := by
  obtain ⟨t, rfl, h⟩ := h
  intro t' ht'
  cases ht'
  exact ha.known t h

theorem conflictLoop_fine (hg : SoundTables env.g m) (ha : Answers env S Given)
    (hahead : env.fullSource = true → ∀ types, types ≠ 0 → CoversState env.g types → AlwaysAnswers env S types) (fuel : Nat) {pc : PC σ} {tok : Option Token}
    {tokens : List (Option Token)} {rc : RC} (h : PCOk env S Given pc) (ht : OkTok env.g tok)
    (hts : ∀ t ∈ (tokens ++ [tok]).drop 1, t = none ∧ env.fullSource = false ∨ GotTok Given t)
    (hrc : RCOk env.g 0 rc) (hl : rc.len ≠ 0) (hq : rc.q = [])
    (hr : RuledAll rc ∨ ∃ b top l, rc.store = [b] ∧ rc.cur = [0] ∧ b.stack = top :: l ∧
      ∃ r r' rs, findRules env.g env.upper tok top.state = some (r :: r' :: rs)) :
    Fine (fun x => PCOk env S Given x.1 ∧ x.1.stack = pc.stack ∧ (∀ t ∈ x.2.1.drop 1, t = none ∧ env.fullSource = false ∨ GotTok Given t) ∧ x.2.2 ≠ [] ∧ ∀ r ∈ x.2.2, GoodRule env.g r)
      (conflictLoop env fuel pc tok tokens rc) := by
  induction fuel generalizing pc tok tokens rc with
  | zero => rw [conflictLoop]; trivial
  | succ fuel ih =>
    rw [conflictLoop]
    refine Fine.bind (round_fine hg ht fuel hrc hl hq hr) ?_
    rintro rc' ⟨h1, h2, h3, h4⟩
    dsimp only
    obtain ⟨rules, h5, h6, h7⟩ := chosen_fine h1 h2 h3
    rw [h5]
    split
    · exact ⟨h, rfl, hts, h6, h7⟩
    · split
      · exact ⟨h, rfl, hts, h6, h7⟩
      · rename_i hlen hty
        refine Fine.bind (nextToken_fine ha rc'.types fuel h) ?_
        rintro ⟨pc', r⟩ ⟨h8, h9, h10⟩
        cases r with
        | error e => exact ⟨h8, h9, hts, h6, h7⟩
        | ok tok' =>
          dsimp only at h8 h9 ⊢
          have hgot : tok' = none ∧ env.fullSource = false ∨ GotTok Given tok' := by
            refine (h10 tok' rfl).imp_left fun hx => ⟨hx.1, ?_⟩
            rcases hx.2 with h11 | h11
            · cases hf : env.fullSource with
              | false => rfl
              | true => exact absurd (hahead hf _ hty (types_coversState h1 hty)) h11
            · exact h11.2
          have hok : OkTok env.g tok' := by
            rcases hgot with ⟨rfl, -⟩ | hgot
            · intro t ht; cases ht
            · exact hgot.ok ha
          have h11 := ih h8 hok (tokens := tokens ++ [tok]) (by
            intro t ht'
            rw [List.drop_append_of_le_length (by simp)] at ht'
            rcases List.mem_append.mp ht' with ht' | ht'
            · exact hts t ht'
            · rw [List.mem_singleton.mp ht']; exact hgot) h1 (by omega) h4 (.inl h3)
          rw [h9] at h11
          exact h11

theorem conflictLoop_head (fuel : Nat) {pc pc' : PC σ} {tok tok0 : Option Token} {ts tokens : List (Option Token)} {rc : RC}
    {rules : List Rule} (h0 : (ts ++ [tok]).head? = some tok0) (h : conflictLoop env fuel pc tok ts rc = .done (pc', tokens, rules)) :
    tokens.head? = some tok0 := by
  induction fuel generalizing pc tok ts rc with
  | zero => simp [conflictLoop] at h
  | succ fuel ih =>
    rw [conflictLoop, bindRun_done] at h
    obtain ⟨rc1, -, h⟩ := h
    dsimp only at h
    split at h
    · obtain ⟨_, -, h⟩ := orPanic_done.mp h
      cases h; exact h0
    · split at h
      · obtain ⟨_, -, h⟩ := orPanic_done.mp h
        cases h; exact h0
      · rw [bindRun_done] at h
        obtain ⟨⟨pc1, r⟩, -, h⟩ := h
        cases r with
        | error e =>
          obtain ⟨_, -, h⟩ := orPanic_done.mp h
          cases h; exact h0
        | ok tok' => exact ih (by rw [List.head?_append, h0]; rfl) h

theorem nextRule_fine (hg : SoundTables env.g m) (ha : Answers env S Given)
    (hahead : env.fullSource = true → Conflicts m → ∀ types, types ≠ 0 → CoversState env.g types → AlwaysAnswers env S types) (fuel : Nat) {pc : PC σ} {tok : Option Token}
    (h : PCOk env S Given pc) (ht : OkTok env.g tok) {node : NodeRec} {rest : List NodeRec} (hs : pc.stack = node :: rest)
    {s : Nat} {gs : GState} (hst : node.state = s) (hgs : env.g.tables.states[s]? = some gs)
    (hpace : (leftOver (tok :: pc.tokens) pc.applied).length ≤ 1) :
    Fine (fun x => PCOk env S Given x.1 ∧ x.1.stack = pc.stack ∧ (x.2 = none → m s anyToken = [] ∧ x.1.tokens = []) ∧
        ∀ r, x.2 = some r → GoodRule env.g r ∧ (leftOver (tok :: x.1.tokens) (r :: x.1.applied)).length ≤ 1)
      (nextRule env fuel pc tok node.state) := by
  rw [nextRule]
  cases hap : pc.applied with
  | cons r rs =>
    refine ⟨⟨h.src, h.tokens, fun x hx => h.applied x (by rw [hap]; simp [hx]), h.stack⟩, rfl, fun hx => (by cases hx), fun x hx => ?_⟩
    cases hx
    exact ⟨h.applied r (by rw [hap]; simp), by rw [hap] at hpace; exact hpace⟩
  | nil =>
    dsimp only
    obtain ⟨rules, h1, h2, h3, h4⟩ := findRules_good hg env.upper ht hgs
    have hnil : pc.tokens = [] := by
      rw [hap, leftOver_start] at hpace
      exact List.length_eq_zero_iff.mp (by simpa using hpace)
    rw [hst, h1, orPanic]
    match rules, h1, h2, h3, h4 with
    | [], h1, h2, h3, h4 => exact ⟨h, rfl, fun _ => ⟨h3 rfl, hnil⟩, fun x hx => by cases hx⟩
    | [r], h1, h2, h3, h4 =>
      refine ⟨h, rfl, fun hx => (by cases hx), fun x hx => ?_⟩
      cases hx
      dsimp only
      refine ⟨h2 r (by simp), ?_⟩
      rw [hnil]
      rcases leftOver_one tok (r :: pc.applied) with e | e <;> rw [e] <;> simp
    | r :: r' :: rs, h1, h2, h3, h4 =>
      dsimp only
      rw [resolveConflict, hs, List.head?_cons, orPanic]
      have hfr := h.stack
      rw [hs, List.map_cons] at hfr
      refine Fine.bind (Fine.and (conflictLoop_fine (rc := { store := [⟨[node.toFrame], []⟩], cur := [0], len := 1 }) hg ha (fun hf => hahead hf (h4 (by simp))) fuel h ht
        (tokens := []) (by simp)
        ⟨?_, by simp, by simp, fun l hl => (by cases hl), by simp, fun p hp => (by cases hp), fun p hp => (by cases hp), by simp, Nat.zero_le _⟩
        (by simp) rfl (.inr ⟨_, node.toFrame, [], rfl, rfl, rfl, r, r', rs, ?_⟩))
        (Q := fun x => (leftOver x.2.1 x.2.2).length ≤ 1 ∧ x.1.tokens = [] ∧ x.2.1.head? = some tok) ?_) ?_
      · intro b hb
        rw [List.mem_singleton.mp hb]
        refine ⟨⟨fun f hf => ?_, fun f hf => ?_⟩, by simp⟩
        · rw [List.mem_singleton.mp hf]; exact hfr.1 _ (by simp)
        · cases hf; exact hfr.2 _ rfl
      · show findRules env.g env.upper tok node.state = _
        rw [hst]; exact h1
      · rintro ⟨pc', tokens, rules⟩ hx
        refine ⟨(conflictLoop_leftOver fuel hnil ?_ (by simp) (by simp) rfl hx).1, (conflictLoop_leftOver fuel hnil ?_ (by simp) (by simp) rfl hx).2,
          conflictLoop_head fuel rfl hx⟩ <;>
        · intro p hp
          dsimp only [List.take_succ_cons, List.take_zero] at hp
          rw [List.mem_singleton.mp hp]
          exact ⟨_, rfl, leftOver_none _⟩
      · rintro ⟨pc', tokens, rules⟩ ⟨⟨h5, h6, h7, h8, h9⟩, h10, h11, h12⟩
        dsimp only at h5 h6 h7 h8 h9 h10 h11 h12 ⊢
        cases rules with
        | nil => exact absurd rfl h8
        | cons r0 rules =>
          rw [List.head?_cons, orPanic]
          refine ⟨⟨h5.src, fun t ht => ?_, fun x hx => h9 x (by simp at hx; simp [hx]), h5.stack⟩, ?_, fun hx => (by cases hx), fun x hx => ?_⟩
          · rcases List.mem_append.mp ht with ht | ht
            · exact h7 t ht
            · exact h5.tokens t ht
          · exact h6.trans hs
          · cases hx
            refine ⟨h9 r0 (by simp), ?_⟩
            dsimp only
            cases tokens with
            | nil => cases h12
            | cons t0 tokens =>
              cases h12
              rw [h11]
              simpa using h10

/-- The step keeps everything but the stack and hooks. -/
def KeepsRest (pc pc' : PC σ) : Prop := pc'.src = pc.src ∧ pc'.tokens = pc.tokens ∧ pc'.applied = pc.applied

theorem addNode_fine {pc : PC σ} {index first : Nat} {gs : GState} {tok : Option Token} {st : List NodeRec} {log : List Event}
    (h1 : env.g.firsts[index]? = some first) (h2 : env.g.tables.states[first]? = some gs) (hst : ∀ n ∈ st, FrameOk env.g n.toFrame) :
    FineRes (fun pc' => KeepsRest pc pc' ∧ (∀ n ∈ pc'.stack, FrameOk env.g n.toFrame) ∧ TopOpen (pc'.stack.map (·.toFrame)) ∧ pc'.stack ≠ [])
      (addNode env pc index tok st log) := by
  rw [addNode]
  split
  · exact .error
  · rw [h1, orPanic, h2, orPanic]
    refine .ok ⟨⟨rfl, rfl, rfl⟩, List.forall_mem_cons.mpr ⟨.inr ⟨first, gs, rfl, h2, rfl⟩, hst⟩, fun f hf => ?_, by simp⟩
    cases hf
    show (first : Int) ≠ finalState
    unfold finalState; omega

theorem pushNode_fine {pc : PC σ} {index first : Nat} {gs : GState} {tok : Option Token}
    (h1 : env.g.firsts[index]? = some first) (h2 : env.g.tables.states[first]? = some gs) (hst : ∀ n ∈ pc.stack, FrameOk env.g n.toFrame) :
    FineRes (fun pc' => KeepsRest pc pc' ∧ (∀ n ∈ pc'.stack, FrameOk env.g n.toFrame) ∧ TopOpen (pc'.stack.map (·.toFrame)) ∧ pc'.stack ≠ [])
      (pushNode env pc index tok) := by
  rw [pushNode]
  split
  · exact addNode_fine h1 h2 (by simp)
  · rename_i node rest hs
    rw [hs] at hst
    split
    · exact .error
    · split
      · exact .error
      · exact addNode_fine h1 h2 (List.forall_mem_cons.mpr ⟨hst node (by simp), fun n hn => hst n (by simp [hn])⟩)

theorem popLoop_fine (sides : List Token) (st : List NodeRec) {st' : List NodeRec} {log log' : List Event} {last last' : Option Nat}
    (h : popLoop env sides st log last = .ok (st', log', last')) (hst : ∀ n ∈ st, FrameOk env.g n.toFrame) :
    StackOk env.g (st'.map (·.toFrame)) := by
  induction st generalizing log last with
  | nil => rw [popLoop] at h; cases h; exact .nil
  | cons node rest ih =>
    rw [popLoop] at h
    split at h
    · rename_i hne
      cases h
      refine ⟨fun f hf => ?_, fun f hf => ?_⟩
      · rcases List.mem_cons.mp hf with rfl | hf
        · exact hst node (by simp)
        · obtain ⟨n, hn, rfl⟩ := List.mem_map.mp hf
          exact hst n (by simp [hn])
      · cases hf; exact hne
    · split at h
      · cases h
      · split at h
        · cases h
        · cases rest with
          | nil => cases h; exact .nil
          | cons parent rest' =>
            dsimp only at h
            split at h
            · cases h
            · exact ih h (fun n hn => hst n (by simp [List.mem_cons.mp hn]))

theorem popNode_fine {pc : PC σ} (hne : pc.stack ≠ []) (hst : ∀ n ∈ pc.stack, FrameOk env.g n.toFrame) :
    FineRes (fun pc' => KeepsRest pc pc' ∧ StackOk env.g (pc'.stack.map (·.toFrame))) (popNode env pc) := by
  rw [popNode]
  split
  · rename_i h; exact absurd h hne
  · rename_i node rest hs
    rw [hs] at hst
    split
    · exact .error
    · rename_i st log last hp
      exact .ok ⟨⟨rfl, rfl, rfl⟩, popLoop_fine _ _ hp (List.forall_mem_cons.mpr ⟨hst node (by simp), fun n hn => hst n (by simp [hn])⟩)⟩

theorem handleNodeToken_fine {pc : PC σ} {tok : Option Token} (hne : pc.stack ≠ []) (hst : ∀ n ∈ pc.stack, FrameOk env.g n.toFrame) :
    FineRes (fun pc' => KeepsRest pc pc' ∧ (∀ n ∈ pc'.stack, FrameOk env.g n.toFrame) ∧ pc'.stack ≠ []) (handleNodeToken env pc tok) := by
  rw [handleNodeToken.eq_def]
  split
  · exact .ok ⟨⟨rfl, rfl, rfl⟩, hst, hne⟩
  · rename_i h; exact absurd h hne
  · rename_i t node rest hs
    rw [hs] at hst
    have hl : ∀ sides, ∀ n ∈ { node with sides := sides } :: rest, FrameOk env.g n.toFrame := fun sides =>
      List.forall_mem_cons.mpr ⟨hst node (by simp), fun n hn => hst n (by simp [hn])⟩
    split
    · exact .ok ⟨⟨rfl, rfl, rfl⟩, hl _, by simp⟩
    · split
      · exact .error
      · exact .ok ⟨⟨rfl, rfl, rfl⟩, hl _, by simp⟩

theorem applyRule_fine {pc : PC σ} {tok : Option Token} {r : Rule} (hr : GoodRule env.g r) (h : PCOk env S Given pc) (hne : pc.stack ≠ []) :
    FineRes (fun x => PCOk env S Given x.1 ∧ x.2 = consumes r tok ∧ x.1.tokens = pc.tokens ∧ x.1.applied = pc.applied) (applyRule env pc tok r) := by
  rw [applyRule]
  cases hs : pc.stack with
  | nil => exact absurd hs hne
  | cons node rest =>
    have hfr := h.stack
    rw [hs, List.map_cons] at hfr
    dsimp only
    obtain ⟨f, h1, h2⟩ := moveFrame_good hr (hfr.1 node.toFrame (by simp))
    rw [h1, orPanic]
    have hst : ∀ n ∈ { node with toFrame := f } :: rest, FrameOk env.g n.toFrame := List.forall_mem_cons.mpr ⟨h2, fun n hn =>
      hfr.1 _ (by simp only [List.mem_cons]; exact .inr (List.mem_map.mpr ⟨n, hn, rfl⟩))⟩
    refine FineRes.bind (P := fun pc' => KeepsRest pc pc' ∧ (∀ n ∈ pc'.stack, FrameOk env.g n.toFrame) ∧ pc'.stack ≠ []) ?_ ?_
    · by_cases hn : r.node = sameNode
      · rw [if_neg (by simpa using hn)]
        split
        · have := handleNodeToken_fine (env := env) (tok := tok) (pc := { pc with stack := { node with toFrame := f } :: rest, steps := pc.steps ++ [(tok, r)] }) (by simp) hst
          exact Fine.mono this fun a ha b hb => ha b hb
        · exact .ok ⟨⟨rfl, rfl, rfl⟩, hst, by simp⟩
      · rw [if_pos (by simpa using hn)]
        obtain ⟨n, first, gs, h3, h4, h5⟩ := hr.2.resolve_left hn
        rw [if_pos (by omega), h3, Int.toNat_natCast]
        have := pushNode_fine (env := env) (tok := tok) (pc := { pc with stack := { node with toFrame := f } :: rest, steps := pc.steps ++ [(tok, r)] }) h4 h5 hst
        exact Fine.mono this fun a ha b hb => ⟨(ha b hb).1, (ha b hb).2.1, (ha b hb).2.2.2⟩
    · rintro pc1 ⟨hk, hf1, hne1⟩
      refine FineRes.bind (P := fun pc' => KeepsRest pc1 pc' ∧ StackOk env.g (pc'.stack.map (·.toFrame))) ?_ ?_
      · cases hs1 : pc1.stack with
        | nil => exact absurd hs1 hne1
        | cons top st =>
          dsimp only
          split
          · exact popNode_fine hne1 hf1
          · rename_i htop
            refine .ok ⟨⟨rfl, rfl, rfl⟩, fun x hx => ?_, fun x hx => ?_⟩
            · obtain ⟨n, hn, rfl⟩ := List.mem_map.mp hx
              exact hf1 n hn
            · rw [hs1] at hx; cases hx; exact htop
      · rintro pc2 ⟨hk2, hf2⟩
        refine .ok ⟨⟨?_, ?_, ?_, hf2⟩, rfl, by rw [hk2.2.1, hk.2.1], by rw [hk2.2.2, hk.2.2]⟩
        · rw [hk2.1, hk.1]; exact h.src
        · rw [hk2.2.1, hk.2.1]; exact h.tokens
        · rw [hk2.2.2, hk.2.2]; exact h.applied

theorem unexpected_fine (hg : SoundTables env.g m) {s : Nat} {gs : GState} (hs : env.g.tables.states[s]? = some gs) (hany : m s anyToken = []) {t : Token}
    {P : PC σ × Bool → Prop} : FineRes P (unexpected env s t) := by
  rw [unexpected]
  have hi : Go.index env.g.tables.states (s : Int) = some gs := by simp [Go.index, hs]
  obtain ⟨k, hk⟩ := hg.names s gs hs hany
  rw [hi, Option.bind_some, hk, orPanic]
  exact .error

theorem noRule_fine (hg : SoundTables env.g m) (ha : Answers env S Given) {fuel : Nat} {pc : PC σ} (h : PCOk env S Given pc) (hnil : pc.tokens = []) {tok : Option Token} {s : Nat} {gs : GState}
    (hs : env.g.tables.states[s]? = some gs) (hany : m s anyToken = []) {P : PC σ × Bool → Prop} : FineRes P (noRule env fuel pc tok s) := by
  rw [noRule.eq_def]
  cases tok with
  | some t => exact unexpected_fine hg hs hany
  | none =>
    refine Fine.bind (nextToken_fine ha allTokenTypes fuel h) ?_
    rintro ⟨pc', r⟩ ⟨-, -, h1⟩
    rcases r with e | (_ | t)
    · exact FineRes.error
    · rcases h1 none rfl with h2 | ⟨t, h2, -⟩
      · rcases h2.2 with h2 | h2
        · exact absurd ha.all h2
        · exact absurd hnil h2.1
      · cases h2
    · exact unexpected_fine hg hs hany

theorem inner_fine (hg : SoundTables env.g m) (ha : Answers env S Given)
    (hahead : env.fullSource = true → Conflicts m → ∀ types, types ≠ 0 → CoversState env.g types → AlwaysAnswers env S types) (fuel : Nat) {pc : PC σ} {tok : Option Token}
    (h : PCOk env S Given pc) (ht : tok = none ∨ GotTok Given tok) (hne : tok = none → pc.stack ≠ [])
    (hpace : (leftOver (tok :: pc.tokens) pc.applied).length ≤ 1) :
    FineRes (fun x => PCOk env S Given x.1 ∧ (x.2 = false → GotTok Given tok ∧ x.1.stack = []) ∧
      (x.2 = true → (leftOver x.1.tokens x.1.applied).length ≤ 1)) (inner env fuel pc tok) := by
  induction fuel generalizing pc with
  | zero => rw [inner]; trivial
  | succ fuel ih =>
    rw [inner]
    have hok : OkTok env.g tok := by
      rcases ht with rfl | ht
      · intro t ht; cases ht
      · exact ht.ok ha
    cases hs : pc.stack with
    | nil => exact .ok ⟨h, fun _ => ⟨ht.resolve_left fun h0 => hne h0 hs, hs⟩, fun hx => by cases hx⟩
    | cons node rest =>
      dsimp only
      have hfr := h.stack
      rw [hs, List.map_cons] at hfr
      obtain ⟨s, gs, h1, h2, -⟩ := hfr.top
      refine Fine.bind (nextRule_fine hg ha hahead fuel h hok hs h1 h2 hpace) ?_
      rintro ⟨pc1, r⟩ ⟨h3, h4, h5, h6⟩
      cases r with
      | none =>
        dsimp only
        rw [show node.state = (s : Int) from h1]
        exact noRule_fine hg ha h3 (h5 rfl).2 h2 (h5 rfl).1
      | some r =>
        dsimp only at h3 h4 ⊢
        refine FineRes.bind (applyRule_fine (tok := tok) (h6 r rfl).1 h3 (by rw [h4, hs]; simp)) ?_
        rintro ⟨pc2, c⟩ ⟨h7, h8, h9, h10⟩
        dsimp only at h7 h8 h9 h10 ⊢
        have hp2 := (h6 r rfl).2
        dsimp only at hp2
        rw [leftOver_cons, ← h8] at hp2
        split
        · rename_i hc
          rw [if_pos hc] at hp2
          exact .ok ⟨h7, fun hf => (by dsimp only at hf; rw [hc] at hf; cases hf), fun _ => by dsimp only; rw [h9, h10]; exact hp2⟩
        · rename_i hc
          rw [if_neg hc] at hp2
          refine ih h7 (fun h0 => absurd ?_ hc) (by rw [h9, h10]; exact hp2)
          rw [h8, h0]; simp [consumes]

theorem nextLoop_applied {types : TokenTypeSet} (fuel : Nat) {pc pc' : PC σ} {r : Except PErr (Option Token)}
    (h : nextLoop env types fuel pc = .done (pc', r)) : pc'.applied = pc.applied := by
  induction fuel generalizing pc with
  | zero => simp [nextLoop] at h
  | succ fuel ih =>
    rw [nextLoop, bindRun_done] at h
    obtain ⟨⟨src, q⟩, h1, h⟩ := h
    cases q with
    | error e => cases h; rfl
    | ok t =>
      dsimp only at h
      split at h
      · have := ih h
        exact this
      · cases h; rfl

theorem nextToken_pace {types : TokenTypeSet} {fuel : Nat} {pc pc' : PC σ} {tok : Option Token} (h : (leftOver pc.tokens pc.applied).length ≤ 1)
    (he : nextToken env fuel pc types = .done (pc', .ok tok)) : (leftOver (tok :: pc'.tokens) pc'.applied).length ≤ 1 := by
  rw [nextToken.eq_def] at he
  split at he
  · rename_i t ts hts
    cases he
    rw [hts] at h
    exact h
  · rename_i hts
    rw [nextLoop_left fuel he, nextLoop_applied fuel he, hts]
    rcases leftOver_one tok pc.applied with e | e <;> rw [e] <;> simp

theorem outer_fine (hg : SoundTables env.g m) (ha : Answers env S Given)
    (hahead : env.fullSource = true → Conflicts m → ∀ types, types ≠ 0 → CoversState env.g types → AlwaysAnswers env S types) (fuel : Nat) {pc : PC σ} {tok : Option Token}
    {consumed : Bool} (h : PCOk env S Given pc) (hc : pc.stack = [] → consumed = false → GotTok Given tok)
    (hpace : pc.stack ≠ [] → (leftOver pc.tokens pc.applied).length ≤ 1) :
    FineRes (fun x => PCOk env S Given x.1 ∧ (x.2.2 = false → GotTok Given x.2.1)) (outer env fuel pc tok consumed) := by
  induction fuel generalizing pc tok consumed with
  | zero => rw [outer]; trivial
  | succ fuel ih =>
    rw [outer]
    cases hs : pc.stack with
    | nil => exact .ok ⟨h, hc hs⟩
    | cons node rest =>
      dsimp only
      refine Fine.bind (Fine.and (nextToken_fine ha node.types fuel h) (Q := fun x => ∀ tok, x.2 = .ok tok → (leftOver (tok :: x.1.tokens) x.1.applied).length ≤ 1) ?_) ?_
      · rintro ⟨pc1, r⟩ hx tok hr
        dsimp only at hr ⊢
        subst hr
        exact nextToken_pace (hpace (by rw [hs]; simp)) hx
      rintro ⟨pc1, r⟩ ⟨⟨h1, h2, h3⟩, h0⟩
      cases r with
      | error e => exact FineRes.error
      | ok tok1 =>
        dsimp only at h1 h2 ⊢
        refine FineRes.bind (inner_fine hg ha hahead fuel h1 ((h3 tok1 rfl).imp_left And.left) (fun _ => by rw [h2, hs]; simp) (h0 tok1 rfl)) ?_
        rintro ⟨pc2, c⟩ ⟨h4, h5, h6⟩
        refine ih h4 (fun _ hc => (h5 hc).1) fun hne => h6 ?_
        cases hc : c with
        | true => rfl
        | false => exact absurd (h5 hc).2 hne

theorem restLoop_fine (hf : env.fullSource = true) (ha : Answers env S Given) (fuel : Nat) {pc : PC σ} (h : PCOk env S Given pc) : FineRes (fun _ => True) (restLoop env fuel pc) := by
  induction fuel generalizing pc with
  | zero => rw [restLoop]; trivial
  | succ fuel ih =>
    rw [restLoop]
    refine Fine.bind (nextToken_fine ha allTokenTypes fuel h) ?_
    rintro ⟨pc', r⟩ ⟨h1, -, h3⟩
    rcases r with e | (_ | t)
    · exact FineRes.error
    · rcases h3 none rfl with h2 | ⟨t, h2, -⟩
      · rcases h2.2 with h2 | h2
        · exact absurd ha.all h2
        · rw [hf] at h2; cases h2.2
      · cases h2
    · dsimp only
      split
      · exact FineRes.ok trivial
      · split
        · exact ih h1
        · exact FineRes.error

theorem finish_fine (ha' : Answers env S' Given) (hss : ∀ q, S q → S' q) (hu : TakesBack env S S' Given) (fuel : Nat) {pc : PC σ} (h : PCOk env S Given pc) {tok : Option Token} {consumed : Bool}
    (hc : consumed = false → GotTok Given tok) : FineRes (fun _ => True) (finish env fuel pc tok consumed) := by
  rw [finish]
  have h' : PCOk env S' Given pc := ⟨hss _ h.src, h.tokens, h.applied, h.stack⟩
  refine Fine.bind (P := fun pc => PCOk env S' Given pc) ?_ ?_
  · rw [putBack.eq_def]
    split
    · exact h'
    · rename_i hcc
      obtain ⟨t, rfl, hgt⟩ := hc (by simpa using hcc)
      dsimp only
      split
      · exact h'
      · split
        · exact h'
        · rename_i h1 h2
          obtain ⟨q, h3, h4⟩ := hu pc.src t h.src hgt h1 (by cases hp : t.pos.src <;> simp_all)
          rw [h3, orPanic]
          exact ⟨h4, h.tokens, h.applied, h.stack⟩
  · intro pc1 h1
    split
    · rename_i hf
      exact restLoop_fine (by simpa using hf.1) ha' fuel h1
    · exact FineRes.ok trivial

theorem parse_fine (hg : SoundTables env.g m) (ha : Answers env S Given) (ha' : Answers env S' Given) (hss : ∀ q, S q → S' q) (hu : TakesBack env S S' Given)
    (hahead : env.fullSource = true → Conflicts m → ∀ types, types ≠ 0 → CoversState env.g types → AlwaysAnswers env S types) (fuel : Nat) {q : σ} (hq : S q) (pos : SrcPos) :
    FineRes (fun _ => True) (parse env fuel q pos) := by
  rw [parse]
  obtain ⟨f, h1⟩ := hg.root
  obtain ⟨gs, h2⟩ := hg.closed.2 _ _ h1
  refine FineRes.bind (pushNode_fine h1 h2 (by simp)) ?_
  rintro pc ⟨hk, hf, ht, hne⟩
  rw [parseLoop]
  refine FineRes.bind (outer_fine hg ha hahead fuel ⟨?_, ?_, ?_, fun f hf' => ?_, ht⟩ (fun h => absurd h hne) (fun _ => by rw [hk.2.1, hk.2.2]; simp [leftOver_none])) ?_
  · rw [hk.1]; exact hq
  · rw [hk.2.1]; simp
  · rw [hk.2.2]; simp
  · obtain ⟨n, hn, rfl⟩ := List.mem_map.mp hf'
    exact hf n hn
  · rintro ⟨pc1, tok, c⟩ ⟨h3, h4⟩
    exact finish_fine ha' hss hu fuel h3 h4

end Verif.Proof
