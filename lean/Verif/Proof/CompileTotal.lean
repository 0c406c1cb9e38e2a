/-
Compilation never panics and always stops.
-/
import Verif.Proof.CompileMeans

namespace Verif.Model

open Verif.Spec Verif.Spec.Ebnf PR

mutual

/-- All tokens of an expression are less than `n`. -/
def Chunk.Below (n : Nat) : Chunk → Prop
  | .token t => t < n
  | .eoi => True
  | .node _ => True
  | .variant cs => Chunk.BelowAll n cs
  | .group cs _ _ => Chunk.BelowAll n cs

/-- All tokens of expressions are less than `n`. -/
def Chunk.BelowAll (n : Nat) : List Chunk → Prop
  | [] => True
  | c :: cs => c.Below n ∧ Chunk.BelowAll n cs

end

/-- All keys are less than `n`. -/
def PR.KeysBelow (n : Nat) (pr : PR) : Prop := ∀ e ∈ pr.states, ∀ k ∈ e.keys, k < (n : Int)

theorem addState_below {n : Nat} {pr : PR} (h : pr.KeysBelow n) : pr.addState.KeysBelow n := by
  intro e he k hk
  rcases List.mem_append.1 he with he | he
  · exact h e he k hk
  · rw [List.mem_singleton] at he
    subst he
    simp at hk

theorem addStates_below {n : Nat} (m : Nat) {pr : PR} (h : pr.KeysBelow n) : (addStates m pr).KeysBelow n := by
  induction m generalizing pr with
  | zero => exact h
  | succ m ih => exact ih (addState_below h)

theorem set_below {n s : Nat} {l : List Entry} {e : Entry} (h : ∀ e ∈ l, ∀ k ∈ e.keys, k < (n : Int)) (he : ∀ k ∈ e.keys, k < (n : Int)) :
    ∀ e' ∈ l.set s e, ∀ k ∈ e'.keys, k < (n : Int) := by
  intro e' he' k hk
  rcases List.mem_or_eq_of_mem_set he' with h1 | rfl
  · exact h e' h1 k hk
  · exact he k hk

theorem addRule_below {n : Nat} {pr pr' : PR} {s : Nat} {st nd k : Int} (h : pr.KeysBelow n) (hk : k < n)
    (hr : pr.addRule s st nd k = some pr') : pr'.KeysBelow n := by
  unfold addRule at hr
  cases he : pr.states[s]? with
  | none => rw [he] at hr; cases hr
  | some e =>
    rw [he] at hr
    dsimp only at hr
    have hins : ∀ j ∈ insert k e.keys, j < (n : Int) := by
      intro j hj
      rcases Finset.mem_insert.1 hj with rfl | hj
      · exact hk
      · exact h e (List.mem_of_getElem? he) j hj
    split at hr <;> cases hr <;> exact set_below h hins

theorem addRules_below {n : Nat} {s : Nat} {st nd : Int} : ∀ (ks : List Int) {pr pr' : PR}, pr.KeysBelow n → (∀ k ∈ ks, k < (n : Int)) →
    PR.addRules s st nd ks pr = some pr' → pr'.KeysBelow n
  | [], _, _, h, _, hr => by cases hr; exact h
  | k :: ks, pr, pr', h, hk, hr => by
    rw [PR.addRules, Option.bind_eq_some_iff] at hr
    obtain ⟨q, h1, h2⟩ := hr
    exact addRules_below ks (addRule_below h (hk k (by simp)) h1) (fun k' hk' => hk k' (by simp [hk'])) h2

theorem copyRules_below {n : Nat} {pr pr' : PR} {d s : Nat} (h : pr.KeysBelow n) (hr : pr.copyRules d s = some pr') : pr'.KeysBelow n := by
  unfold copyRules at hr
  split at hr
  · next e f he hf =>
    cases hr
    refine set_below h ?_
    intro k hk
    rcases Finset.mem_union.1 hk with hk | hk
    · exact h e (List.mem_of_getElem? he) k hk
    · exact h f (List.mem_of_getElem? hf) k hk
  · cases hr

theorem closeSeq_below {n : Nat} : ∀ (cs : List Chunk) {pr pr' : PR} {s j : Nat} {t : Int}, pr.KeysBelow n →
    closeSeq cs pr s j t = some pr' → pr'.KeysBelow n
  | [], _, _, _, _, _, h, hr => by cases hr; exact h
  | c :: cs, pr, pr', s, j, t, h, hr => by
    rw [closeSeq, Option.bind_eq_some_iff] at hr
    obtain ⟨q, h1, h2⟩ := hr
    have h3 := closeSeq_below cs h h1
    split at h2
    · split at h2
      · exact addRule_below h3 (by unfold anyToken; omega) h2
      · exact copyRules_below h3 h2
    · cases h2; exact h3

mutual

theorem build_below (ft : Nat → Finset Int) {n : Nat} (hft : ∀ i, ∀ k ∈ ft i, k < (n : Int)) : (c : Chunk) → c.Below n → ∀ {pr pr' : PR} {s : Nat} {t : Int},
    pr.KeysBelow n → c.build ft pr s t = some pr' → pr'.KeysBelow n
  | .token t, hb, pr, pr', s, next, h, hr => by
    rw [Chunk.build] at hr
    rw [Chunk.Below] at hb
    exact addRules_below _ h (by intro k hk; rw [List.mem_singleton] at hk; omega) hr
  | .eoi, _, pr, pr', s, next, h, hr => by
    rw [Chunk.build] at hr
    exact addRules_below _ h (by intro k hk; rw [List.mem_singleton] at hk; unfold eoiTokenType at hk; omega) hr
  | .node i, _, pr, pr', s, next, h, hr => by
    rw [Chunk.build] at hr
    exact addRules_below _ h (by intro k hk; exact hft i k (mem_sorted.1 hk)) hr
  | .variant cs, hb, pr, pr', s, next, h, hr => by
    rw [Chunk.build] at hr
    rw [Chunk.Below] at hb
    exact buildAll_below ft hft cs hb h hr
  | .group cs opt rep, hb, pr, pr', s, next, h, hr => by
    rw [Chunk.build] at hr
    rw [Chunk.Below] at hb
    dsimp only at hr
    split at hr
    · rw [Option.bind_eq_some_iff] at hr
      obtain ⟨q, h1, hr⟩ := hr
      rw [Option.bind_eq_some_iff] at hr
      obtain ⟨q2, h2, hr⟩ := hr
      exact copyRules_below (closeSeq_below _ (buildSeq_below ft hft cs hb (addStates_below _ (addState_below h)) h1) h2) hr
    · split at hr
      · cases hr
      · rw [Option.bind_eq_some_iff] at hr
        obtain ⟨q, h1, hr⟩ := hr
        exact closeSeq_below _ (buildSeq_below ft hft cs hb (addStates_below _ h) h1) hr

theorem buildAll_below (ft : Nat → Finset Int) {n : Nat} (hft : ∀ i, ∀ k ∈ ft i, k < (n : Int)) : (cs : List Chunk) → Chunk.BelowAll n cs →
    ∀ {pr pr' : PR} {s : Nat} {t : Int}, pr.KeysBelow n → Chunk.buildAll ft cs pr s t = some pr' → pr'.KeysBelow n
  | [], _, pr, pr', s, t, h, hr => by rw [Chunk.buildAll] at hr; cases hr; exact h
  | c :: cs, hb, pr, pr', s, t, h, hr => by
    rw [Chunk.buildAll, Option.bind_eq_some_iff] at hr
    rw [Chunk.BelowAll] at hb
    obtain ⟨q, h1, hr⟩ := hr
    exact buildAll_below ft hft cs hb.2 (build_below ft hft c hb.1 h h1) hr

theorem buildSeq_below (ft : Nat → Finset Int) {n : Nat} (hft : ∀ i, ∀ k ∈ ft i, k < (n : Int)) : (cs : List Chunk) → Chunk.BelowAll n cs →
    ∀ {pr pr' : PR} {s j : Nat} {t : Int}, pr.KeysBelow n → Chunk.buildSeq ft cs pr s j t = some pr' → pr'.KeysBelow n
  | [], _, pr, pr', s, j, t, h, hr => by rw [Chunk.buildSeq] at hr; cases hr; exact h
  | c :: cs, hb, pr, pr', s, j, t, h, hr => by
    rw [Chunk.buildSeq, Option.bind_eq_some_iff] at hr
    rw [Chunk.BelowAll] at hb
    obtain ⟨q, h1, hr⟩ := hr
    exact buildSeq_below ft hft cs hb.2 (build_below ft hft c hb.1 h h1) hr

end

theorem buildNodes_below (ft : Nat → Finset Int) {n : Nat} (hft : ∀ i, ∀ k ∈ ft i, k < (n : Int)) : ∀ (cs : List Chunk), (∀ c ∈ cs, c.Below n) →
    ∀ {pr pr' : PR} {fs : List Nat}, pr.KeysBelow n → buildNodes ft cs pr = some (pr', fs) → pr'.KeysBelow n
  | [], _, pr, pr', fs, h, hr => by rw [buildNodes] at hr; cases hr; exact h
  | c :: cs, hb, pr, pr', fs, h, hr => by
    rw [buildNodes, Option.bind_eq_some_iff] at hr
    obtain ⟨q, h1, hr⟩ := hr
    rw [Option.map_eq_some_iff] at hr
    obtain ⟨⟨q2, fs2⟩, h2, h3⟩ := hr
    cases h3
    exact buildNodes_below ft hft cs (fun c hc => hb c (by simp [hc])) (build_below ft hft c (hb c (by simp)) (addState_below h) h1) h2

mutual

/-- Tokens of words are tokens of the expression. -/
theorem lang_below {n : Nat} : ∀ (c : Chunk), c.Below n → ∀ w ∈ lang c, ∀ t, Sym.tok t ∈ w → t < n
  | .token t, hb, w, hw, j, hj => by
    rw [lang] at hw
    rw [show w = [Sym.tok t] from hw, List.mem_singleton] at hj
    cases hj
    exact hb
  | .eoi, _, w, hw, j, hj => by
    rw [lang] at hw
    rw [show w = [Sym.eoi] from hw, List.mem_singleton] at hj
    cases hj
  | .node i, _, w, hw, j, hj => by
    rw [lang] at hw
    rw [show w = [Sym.node i] from hw, List.mem_singleton] at hj
    cases hj
  | .variant cs, hb, w, hw, j, hj => by
    rw [lang] at hw
    rw [Chunk.Below] at hb
    exact langAny_below cs hb w hw j hj
  | .group cs opt rep, hb, w, hw, j, hj => by
    rw [lang] at hw
    rw [Chunk.Below] at hb
    have ih := langSeq_below cs hb
    split at hw
    · rw [Language.mem_kstar] at hw
      obtain ⟨L, rfl, hL⟩ := hw
      obtain ⟨u, hu, hj⟩ := List.mem_flatten.1 hj
      exact ih u (hL u hu) j hj
    · split at hw
      · rcases hw with hw | hw
        · rw [show w = [] from hw] at hj; cases hj
        · exact ih w hw j hj
      · exact ih w hw j hj

theorem langAny_below {n : Nat} : ∀ (cs : List Chunk), Chunk.BelowAll n cs → ∀ w ∈ langAny cs, ∀ t, Sym.tok t ∈ w → t < n
  | [], _, w, hw, _, _ => by rw [langAny] at hw; exact absurd hw (Language.notMem_zero w)
  | c :: cs, hb, w, hw, j, hj => by
    rw [langAny] at hw
    rw [Chunk.BelowAll] at hb
    rcases hw with hw | hw
    · exact lang_below c hb.1 w hw j hj
    · exact langAny_below cs hb.2 w hw j hj

theorem langSeq_below {n : Nat} : ∀ (cs : List Chunk), Chunk.BelowAll n cs → ∀ w ∈ langSeq cs, ∀ t, Sym.tok t ∈ w → t < n
  | [], _, w, hw, _, hj => by rw [langSeq] at hw; rw [show w = [] from hw] at hj; cases hj
  | c :: cs, hb, w, hw, j, hj => by
    rw [langSeq, Language.mem_mul] at hw
    rw [Chunk.BelowAll] at hb
    obtain ⟨a, ha, b, hb', rfl⟩ := hw
    rcases List.mem_append.1 hj with hj | hj
    · exact lang_below c hb.1 a ha j hj
    · exact langSeq_below cs hb.2 b hb' j hj

end

theorem starts_below {body : Nat → Chunk} {n m : Nat} (hb : ∀ i < m, (body i).Below n) (hd : ∀ i < m, ∀ j ∈ refs (body i), j < m) {i : Nat} {k : Int}
    (h : Starts body i k) : i < m → k < n := by
  induction h with
  | tok hw =>
    intro hi
    have := lang_below _ (hb _ hi) _ hw _ (List.mem_cons_self ..)
    omega
  | eoi _ => intro _; unfold eoiTokenType; omega
  | node hw _ ih => intro hi; exact ih (hd _ hi _ (Proof.lang_refs _ _ hw _ (List.mem_cons_self ..)))

/-! Expected types -/

theorem stateTypes_some {default : BitVec 64} {ttypes : List (BitVec 64)} {keys : Finset Int} (h : ∀ k ∈ keys, k < (ttypes.length : Int)) :
    ∃ x, stateTypes default ttypes keys = some x := by
  unfold stateTypes
  have : ∀ (l : List Int), (∀ k ∈ l, 0 ≤ k ∧ k < (ttypes.length : Int)) → ∀ a : BitVec 64, ∃ x,
      l.foldl (fun acc k => acc.bind fun a => (ttypes[k.toNat]?).map (a ||| ·)) (some a) = some x := by
    intro l
    induction l with
    | nil => intro _ a; exact ⟨a, rfl⟩
    | cons k l ih =>
      intro hl a
      have hk := hl k (by simp)
      rw [List.foldl_cons, Option.bind_some, List.getElem?_eq_getElem (show k.toNat < ttypes.length by omega), Option.map_some]
      exact ih (fun k hk => hl k (by simp [hk])) _
  refine this _ ?_ default
  intro k hk
  rw [mem_sorted, Finset.mem_filter] at hk
  exact ⟨hk.2, h k hk.1⟩

theorem assignRange_some {default : BitVec 64} {ttypes : List (BitVec 64)} (count : Nat) {j : Nat} {pr : PR}
    (hk : pr.KeysBelow ttypes.length) (hl : count = 0 ∨ j + count ≤ pr.states.length) :
    ∃ pr', assignRange default ttypes count j pr = some pr' ∧ pr'.KeysBelow ttypes.length ∧ pr'.states.length = pr.states.length := by
  induction count generalizing j pr with
  | zero => exact ⟨pr, rfl, hk, rfl⟩
  | succ count ih =>
    have hj : j < pr.states.length := by omega
    obtain ⟨x, hx⟩ := stateTypes_some (default := default) (hk _ (List.getElem_mem hj))
    rw [assignRange, List.getElem?_eq_getElem hj, Option.bind_some, hx, Option.bind_some]
    obtain ⟨pr', h1, h2, h3⟩ := ih (j := j + 1) (pr := { pr with states := pr.states.set j { pr.states[j] with types := x } })
      (set_below hk (fun k hk' => hk _ (List.getElem_mem hj) k hk')) (by right; simp; omega)
    exact ⟨pr', h1, h2, by rw [h3]; simp⟩

theorem assignStateTypes_some {default : BitVec 64} {ttypes : List (BitVec 64)} (fs : List Nat) {pr : PR}
    (hk : pr.KeysBelow ttypes.length) (hl : ∀ f ∈ fs, f ≤ pr.states.length) :
    ∃ pr', assignStateTypes default ttypes fs pr = some pr' := by
  induction fs generalizing pr with
  | nil => exact ⟨pr, rfl⟩
  | cons f fs ih =>
    cases fs with
    | nil =>
      rw [assignStateTypes]
      obtain ⟨pr', h, -⟩ := assignRange_some (default := default) (pr.states.length - f) (j := f) hk (by have := hl f (by simp); omega)
      exact ⟨pr', h⟩
    | cons f' fs =>
      have h1 := hl f (by simp)
      have h2 := hl f' (by simp)
      obtain ⟨pr', h3, h4, h5⟩ := assignRange_some (default := default) (f' - f) (j := f) hk (by omega)
      rw [assignStateTypes, h3, Option.bind_some]
      exact ih h4 (fun g hg => by rw [h5]; exact hl g (by simp [hg]))

theorem reCount_le (ts : List GToken) : reCount ts ≤ ts.length := by
  unfold reCount
  exact (List.takeWhile_sublist _).length_le

theorem literalStart_le (ts : List GToken) : literalStart ts ≤ ts.length := by
  unfold literalStart
  have h1 := reCount_le ts
  have h2 := (List.takeWhile_sublist (fun t : GToken => decide ¬ t.flags.literal) (l := ts.drop (reCount ts))).length_le
  rw [List.length_drop] at h2
  simp only [Bool.not_eq_true] at *
  omega

theorem ttypes_length {upper : List Nat → List Nat} {find : Nat → List Nat → List Nat} {ts : List GToken} {ttypes : List (BitVec 64)}
    (h : assignTokenTypes upper find ts = .ok ttypes) : ttypes.length = ts.length := by
  unfold assignTokenTypes at h
  split at h
  · cases h
  · cases h
    have := literalStart_le ts
    simp
    omega

end Verif.Model
