/-
A run of the node machines is followed by the parser when one token is enough to choose a rule.
-/
import Verif.Proof.OneToken
import Verif.Proof.Parse

namespace Verif.Proof

open Verif.Model Verif.Spec Verif.Props
open Verif.Model.Tree (bindRun)

variable {σ : Type}

section Hooks

variable {env : PEnv σ}

/-- Hooks made for a node. -/
def Alive (env : PEnv σ) (hooks : List (Option Nat)) : Prop :=
  ∃ index tok log log', makeHooks env index tok (List.range env.layers) log = .ok (hooks, log')

/-- A call that tells about a finished nested node. -/
def Returned : Event → Prop
  | .handleNode .. => True
  | _ => False

/-- Hooks do not fail, calls about finished nodes do not fail when they carry results of hooks of these nodes. -/
structure HooksAnswer (env : PEnv σ) : Prop where
  make : ∀ log e, ∃ b, env.onMake log e = .ok b
  call : ∀ log e, ¬ Returned e → ∃ v, env.onCall log e = .ok v
  handle : ∀ hooks nested log0 last0 res log1 last1, Alive env hooks → Alive env nested →
    endHooks env nested.zipIdx log0 last0 = .ok (res, log1, last1) →
    ∀ h ∈ liveHooks hooks, ∀ log n, ∃ v, env.onCall log (.handleNode h.1 h.2 n ((res[h.1]?).getD none)) = .ok v

theorem hooks_answer (hh : HooksPass env) : HooksAnswer env :=
  ⟨hh.2, fun log e _ => hh.1 log e, fun _ _ _ _ _ _ _ _ _ _ _ _ _ _ => hh.1 _ _⟩

theorem send_pass (es log : List Event) (hc : ∀ e ∈ es, ∀ log, ∃ v, env.onCall log e = .ok v) : ∃ log', send env es log = .ok log' := by
  induction es generalizing log with
  | nil => exact ⟨log, rfl⟩
  | cons e es ih =>
    obtain ⟨v, hv⟩ := hc e (by simp) log
    rw [send, hv]
    exact ih _ (fun e he => hc e (by simp [he]))

theorem tokenEvents_call (hh : HooksAnswer env) {hooks : List (Option Nat)} {t : Token} :
    ∀ e ∈ tokenEvents hooks t, ∀ log, ∃ v, env.onCall log e = .ok v := by
  intro e he log
  rw [tokenEvents, List.mem_map] at he
  obtain ⟨h, -, rfl⟩ := he
  exact hh.call _ _ (by simp [Returned])

theorem sideEvents_call (hh : HooksAnswer env) {node : NodeRec} :
    ∀ e ∈ sideEvents node, ∀ log, ∃ v, env.onCall log e = .ok v := by
  intro e he log
  rw [sideEvents, List.mem_flatMap] at he
  obtain ⟨t, -, he⟩ := he
  exact tokenEvents_call hh e he log

theorem makeHooks_pass (hh : HooksAnswer env) (index : Nat) (tok : Option Token) (ls : List Nat) (log : List Event) :
    ∃ r, makeHooks env index tok ls log = .ok r := by
  induction ls generalizing log with
  | nil => exact ⟨_, rfl⟩
  | cons l ls ih =>
    rw [makeHooks]
    split
    · obtain ⟨b, hb⟩ := hh.make log (.make l index tok)
      rw [hb]
      dsimp only
      obtain ⟨r, hr⟩ := ih (log ++ [.make l index tok])
      rw [hr]
      exact ⟨_, rfl⟩
    · obtain ⟨r, hr⟩ := ih log
      rw [hr]
      exact ⟨_, rfl⟩

theorem endHooks_pass (hh : HooksAnswer env) (hs : List (Option Nat × Nat)) (log : List Event) (last : Option Nat) :
    ∃ r, endHooks env hs log last = .ok r := by
  induction hs generalizing log last with
  | nil => exact ⟨_, rfl⟩
  | cons x hs ih =>
    obtain ⟨o, l⟩ := x
    cases o with
    | none =>
      rw [endHooks]
      obtain ⟨r, hr⟩ := ih log last
      rw [hr]
      exact ⟨_, rfl⟩
    | some i =>
      rw [endHooks]
      obtain ⟨v, hv⟩ := hh.call log (.endNode l i) (by simp [Returned])
      rw [hv]
      dsimp only
      obtain ⟨r, hr⟩ := ih (log ++ [.endNode l i]) (if l = 0 ∧ env.watchNodes then v else last)
      rw [hr]
      exact ⟨_, rfl⟩

theorem popLoop_pass (hh : HooksAnswer env) (sides : List Token) (st : List NodeRec) (log : List Event) (last : Option Nat)
    (hl : ∀ n ∈ st, Alive env n.hooks) :
    ∃ st' log' last', popLoop env sides st log last = .ok (st', log', last') ∧
      st'.map (·.toFrame) = popFrames (st.map (·.toFrame)) ∧ ∀ n ∈ st', Alive env n.hooks := by
  induction st generalizing log last with
  | nil => exact ⟨_, _, _, by rw [popLoop], rfl, hl⟩
  | cons node rest ih =>
    rw [popLoop, List.map_cons, popFrames]
    by_cases hf : node.state = finalState
    · rw [if_neg (by simpa using hf), if_pos hf]
      obtain ⟨log1, h1⟩ := send_pass (env := env) (if rest.isEmpty then sides.flatMap (tokenEvents node.hooks) else []) log (by
        intro e he
        split at he
        · obtain ⟨t, -, he⟩ := List.mem_flatMap.mp he
          exact tokenEvents_call hh e he
        · cases he)
      rw [h1]
      dsimp only
      obtain ⟨⟨res, log2, last2⟩, h2⟩ := endHooks_pass hh node.hooks.zipIdx log1 last
      rw [h2]
      dsimp only
      cases rest with
      | nil => exact ⟨_, _, _, rfl, rfl, by simp⟩
      | cons parent rest' =>
        dsimp only
        obtain ⟨log3, h3⟩ := send_pass (env := env) ((liveHooks parent.hooks).map fun h =>
                Event.handleNode h.1 h.2 node.index ((res[h.1]?).getD none)) log2 (by
          intro e he log
          obtain ⟨h, h4, rfl⟩ := List.mem_map.mp he
          exact hh.handle _ _ _ _ _ _ _ (hl parent (by simp)) (hl node (by simp)) h2 h h4 log _)
        rw [h3]
        exact ih log3 last2 (fun n hn => hl n (by simp [hn]))
    · rw [if_pos (by simpa using hf), if_neg hf]
      exact ⟨_, _, _, rfl, rfl, List.forall_mem_cons.mpr ⟨hl node (by simp), fun n hn => hl n (by simp [hn])⟩⟩

theorem popNode_pass (hh : HooksAnswer env) {pc : PC σ} (hne : pc.stack ≠ []) (hl : ∀ n ∈ pc.stack, Alive env n.hooks) :
    ∃ pc', popNode env pc = .done (.ok pc') ∧ pc'.stack.map (·.toFrame) = popFrames (pc.stack.map (·.toFrame)) ∧
      ∀ n ∈ pc'.stack, Alive env n.hooks := by
  rw [popNode]
  cases hs : pc.stack with
  | nil => exact absurd hs hne
  | cons node rest =>
    dsimp only
    rw [hs] at hl
    obtain ⟨st', log', last', h1, h2⟩ := popLoop_pass hh node.sides ({ node with sides := [] } :: rest) pc.log pc.lastResult
      (List.forall_mem_cons.mpr ⟨hl node (by simp), fun n hn => hl n (by simp [hn])⟩)
    rw [h1]
    exact ⟨_, rfl, h2⟩

theorem pushNode_pass (hh : HooksAnswer env) {pc : PC σ} {index first : Nat} {st : GState} {tok : Option Token}
    (hl : ∀ n ∈ pc.stack, Alive env n.hooks) (hf : env.g.firsts[index]? = some first) (hst : env.g.tables.states[first]? = some st) :
    ∃ pc', pushNode env pc index tok = .done (.ok pc') ∧
      pc'.stack.map (·.toFrame) = ⟨st.types, index, (first : Int)⟩ :: pc.stack.map (·.toFrame) ∧ ∀ n ∈ pc'.stack, Alive env n.hooks := by
  have hadd : ∀ stack log, (∀ n ∈ stack, Alive env n.hooks) → ∃ pc', addNode env pc index tok stack log = .done (.ok pc') ∧
      pc'.stack.map (·.toFrame) = ⟨st.types, index, (first : Int)⟩ :: stack.map (·.toFrame) ∧ ∀ n ∈ pc'.stack, Alive env n.hooks := by
    intro stack log hl
    rw [addNode]
    obtain ⟨⟨hooks, log'⟩, h1⟩ := makeHooks_pass hh index tok (List.range env.layers) log
    rw [h1]
    dsimp only
    rw [hf, orPanic, hst, orPanic]
    exact ⟨_, rfl, rfl, List.forall_mem_cons.mpr ⟨⟨_, _, _, _, h1⟩, hl⟩⟩
  rw [pushNode]
  cases hs : pc.stack with
  | nil => exact hadd [] pc.log (by simp)
  | cons node rest =>
    dsimp only
    obtain ⟨log1, h1⟩ := send_pass (env := env) (sideEvents node) pc.log (sideEvents_call hh)
    rw [h1]
    dsimp only
    obtain ⟨log2, h2⟩ := send_pass (env := env) ((liveHooks node.hooks).map fun h => Event.newNode h.1 h.2 index tok) log1 (by
      intro e he log
      obtain ⟨h, -, rfl⟩ := List.mem_map.mp he
      exact hh.call _ _ (by simp [Returned]))
    rw [h2]
    dsimp only
    rw [hs] at hl
    exact hadd ({ node with sides := [] } :: rest) log2 (List.forall_mem_cons.mpr ⟨hl node (by simp), fun n hn => hl n (by simp [hn])⟩)

theorem handleNodeToken_pass (hh : HooksAnswer env) {pc : PC σ} {tok : Option Token} (hne : pc.stack ≠ [])
    (hl : ∀ n ∈ pc.stack, Alive env n.hooks) :
    ∃ pc', handleNodeToken env pc tok = .done (.ok pc') ∧ pc'.stack.map (·.toFrame) = pc.stack.map (·.toFrame) ∧
      ∀ n ∈ pc'.stack, Alive env n.hooks := by
  cases tok with
  | none => exact ⟨pc, by rw [handleNodeToken], rfl, hl⟩
  | some t =>
    cases hs : pc.stack with
    | nil => exact absurd hs hne
    | cons node rest =>
      have hl' := hl
      rw [hs] at hl'
      have hl2 : ∀ sides, ∀ n ∈ { node with sides := sides } :: rest, Alive env n.hooks := fun sides =>
        List.forall_mem_cons.mpr ⟨hl' node (by simp), fun n hn => hl' n (by simp [hn])⟩
      rw [handleNodeToken.eq_def, hs]
      dsimp only
      split
      · exact ⟨_, rfl, rfl, hl2 _⟩
      · obtain ⟨log1, h1⟩ := send_pass (env := env) (sideEvents node ++ tokenEvents node.hooks t) pc.log (by
          intro e he
          rcases List.mem_append.mp he with he | he
          · exact sideEvents_call hh e he
          · exact tokenEvents_call hh e he)
        rw [h1]
        exact ⟨_, rfl, rfl, hl2 _⟩

/-- When hooks do not fail a rule is applied as it is without hooks. -/
theorem applyRule_pass (hh : HooksAnswer env) {pc : PC σ} {tok : Option Token} {rule : Rule} {fr : List Frame} {b : Bool}
    (hl : ∀ n ∈ pc.stack, Alive env n.hooks) (h : applyQuiet env.g tok rule (pc.stack.map (·.toFrame)) = some (fr, b)) :
    ∃ pc', applyRule env pc tok rule = .done (.ok (pc', b)) ∧ pc'.stack.map (·.toFrame) = fr ∧ ∀ n ∈ pc'.stack, Alive env n.hooks := by
  rw [applyRule]
  cases hs : pc.stack with
  | nil => rw [hs] at h; simp [applyQuiet] at h
  | cons node rest =>
    rw [hs] at hl
    have hl1 : ∀ f : Frame, ∀ n ∈ { node with toFrame := f } :: rest, Alive env n.hooks := fun f =>
      List.forall_mem_cons.mpr ⟨hl node (by simp), fun n hn => hl n (by simp [hn])⟩
    rw [hs, List.map_cons, applyQuiet, Option.bind_eq_some_iff] at h
    obtain ⟨f, hf, h⟩ := h
    dsimp only
    rw [hf, orPanic]
    rw [Option.map_eq_some_iff] at h
    obtain ⟨stack, h1, h2⟩ := h
    cases h2
    have hmid : ∃ pc1, (if rule.node ≠ sameNode then
          (if 0 ≤ rule.node then pushNode env { pc with stack := { node with toFrame := f } :: rest, steps := pc.steps ++ [(tok, rule)] } rule.node.toNat tok else .panic)
        else if consumes rule tok then handleNodeToken env { pc with stack := { node with toFrame := f } :: rest, steps := pc.steps ++ [(tok, rule)] } tok
        else .done (.ok { pc with stack := { node with toFrame := f } :: rest, steps := pc.steps ++ [(tok, rule)] })) = .done (.ok pc1) ∧
        pc1.stack.map (·.toFrame) = stack ∧ pc1.stack ≠ [] ∧ ∀ n ∈ pc1.stack, Alive env n.hooks := by
      by_cases hn : rule.node ≠ sameNode
      · rw [if_pos hn] at h1 ⊢
        by_cases h0 : 0 ≤ rule.node
        · rw [if_pos h0] at h1 ⊢
          rw [Option.bind_eq_some_iff] at h1
          obtain ⟨first, h3, h1⟩ := h1
          rw [Option.map_eq_some_iff] at h1
          obtain ⟨st, h4, h1⟩ := h1
          obtain ⟨pc1, h5, h6, h7⟩ := pushNode_pass (pc := { pc with stack := { node with toFrame := f } :: rest, steps := pc.steps ++ [(tok, rule)] })
            (tok := tok) hh (hl1 f) h3 h4
          refine ⟨pc1, h5, by rw [h6, ← h1]; rfl, ?_, h7⟩
          intro h; rw [h] at h6; cases h6
        · rw [if_neg h0] at h1; cases h1
      · rw [if_neg hn] at h1 ⊢
        cases h1
        split
        · obtain ⟨pc1, h5, h6, h7⟩ := handleNodeToken_pass (pc := { pc with stack := { node with toFrame := f } :: rest, steps := pc.steps ++ [(tok, rule)] })
            (tok := tok) hh (by simp) (hl1 f)
          refine ⟨pc1, h5, h6, ?_, h7⟩
          intro h; rw [h] at h6; cases h6
        · exact ⟨_, rfl, rfl, by simp, hl1 f⟩
    obtain ⟨pc1, h3, h4, h5, hl2⟩ := hmid
    rw [h3]
    simp only [bindRes]
    cases hs1 : pc1.stack with
    | nil => exact absurd hs1 h5
    | cons top rest1 =>
      dsimp only
      by_cases ht : top.state = finalState
      · rw [if_pos ht]
        obtain ⟨pc2, h6, h7, h8⟩ := popNode_pass hh h5 hl2
        rw [h6]
        exact ⟨pc2, rfl, by rw [h7, h4], h8⟩
      · rw [if_neg ht]
        refine ⟨pc1, rfl, ?_, hl2⟩
        rw [h4, ← h4, hs1, List.map_cons, popFrames, if_neg ht]

end Hooks


section Rules

variable {g : Grammar} {upper : List Nat → List Nat} {m : Table} {also : Int → Int → Prop}

theorem matches_nonneg {t : Token} {k : Nat} (h : MatchesAs g upper t k) : 0 ≤ t.type := by
  rcases h with h | h
  · exact h.1
  · omega

theorem firstRules_skip {f : Int → List Rule} {ks : List Int} {k : Int} (h : ∀ k' ∈ ks, f k' = []) :
    firstRules f (ks ++ [k]) = f k := by
  induction ks with
  | nil => by_cases hk : f k = [] <;> simp [firstRules, hk]
  | cons a ks ih =>
    have ih := ih (fun k' hk' => h k' (by simp [hk']))
    have ha := h a (by simp)
    unfold firstRules at ih ⊢
    rw [List.cons_append, List.map_cons, List.find?_cons, ha]
    simpa using ih

/-- No key of the token has rules. -/
theorem findRules_skips (hm : Means g.tables m) (hd : DistinctLiterals g) {t : Token} {k : Nat} (h : Readable g upper m also t k)
    {s : Nat} (hs : s < g.tables.states.length) (h0 : m s k = []) (h1 : ∀ k', also k k' → m s k' = []) :
    findRules g upper (some t) s = some (m s anyToken) := by
  have ht := matches_nonneg h.meant
  have key : ∀ k' : Nat, MatchesAs g upper t k' → m s k' = [] := by
    intro k' hk'
    by_cases he : k' = k
    · rw [he]; exact h0
    · exact h1 _ (h.others k' he hk')
  rcases keys_of (upper := upper) hd t h.known with ⟨i, h2, h3, h4⟩ | ⟨i, h2, h3, h4⟩ | ⟨h2, h4⟩
  · rw [findRules_eq hm h4 hs h.ordinary]
    rw [show [(i : Int), anyToken] = [(i : Int)] ++ [anyToken] from rfl, firstRules_skip]
    intro k' hk'
    cases List.mem_singleton.mp hk'
    exact key i (.inl h2)
  · rw [findRules_eq hm h4 hs h.ordinary]
    rw [show [(i : Int), t.type, anyToken] = [(i : Int), t.type] ++ [anyToken] from rfl, firstRules_skip]
    intro k' hk'
    simp only [List.mem_cons, List.not_mem_nil, or_false] at hk'
    rcases hk' with rfl | rfl
    · exact key i (.inl h2)
    · have := key t.type.toNat (.inr ⟨by omega, fun j hj => by rw [← isLiteral_unique hd h2 hj]; exact h3⟩)
      rwa [Int.toNat_of_nonneg ht] at this
  · rw [findRules_eq hm h4 hs h.ordinary]
    rw [show [t.type, anyToken] = [t.type] ++ [anyToken] from rfl, firstRules_skip]
    intro k' hk'
    cases List.mem_singleton.mp hk'
    have := key t.type.toNat (.inr ⟨by omega, fun j hj => absurd hj (h2 j)⟩)
    rwa [Int.toNat_of_nonneg ht] at this

/-- Rules of the key that the token is meant by. -/
theorem findRules_takes (hm : Means g.tables m) (hd : DistinctLiterals g) {t : Token} {k : Nat} (h : Readable g upper m also t k)
    {s : Nat} (hs : s < g.tables.states.length) (h0 : m s k ≠ []) (h1 : ∀ k', also k k' → LiteralKey g k' → m s k' = []) :
    findRules g upper (some t) s = some (m s k) := by
  have hlit : ∀ i : Nat, IsLiteral g upper t i → LiteralKey g i := by
    rintro i ⟨-, tt, lt, -, -, h2, h3, -⟩
    exact ⟨by omega, lt, by simpa using h2, h3⟩
  rcases keys_of (upper := upper) hd t h.known with ⟨i, h2, h3, h4⟩ | ⟨i, h2, h3, h4⟩ | ⟨h2, h4⟩
  · rw [findRules_eq hm h4 hs h.ordinary]
    have hk : k = i := by
      rcases h.meant with h5 | h5
      · exact isLiteral_unique hd h5 h2
      · exact absurd h3 (h5.2 i h2)
    subst hk
    simp [firstRules, h0]
  · rw [findRules_eq hm h4 hs h.ordinary]
    by_cases hk : i = k
    · subst hk
      simp [firstRules, h0]
    · have h5 : m s i = [] := h1 _ (h.others i hk (.inl h2)) (hlit i h2)
      have h6 : t.type = k := by
        rcases h.meant with h6 | h6
        · exact absurd (isLiteral_unique hd h2 h6) hk
        · exact h6.1
      simp [firstRules, h0, h5, h6]
  · rw [findRules_eq hm h4 hs h.ordinary]
    have h6 : t.type = k := by
      rcases h.meant with h6 | h6
      · exact absurd h6 (h2 k)
      · exact h6.1
    simp [firstRules, h0, h6]

theorem findRules_eoiKey (hm : Means g.tables m) (hd : DistinctLiterals g) {t : Token} (ht : t.type = eoiTokenType)
    {s : Nat} (hs : s < g.tables.states.length) (h0 : m s eoiTokenType = []) :
    findRules g upper (some t) s = some (m s anyToken) := by
  have hneg : t.type < 0 := by rw [ht]; decide
  have hside : g.isSideType t.type = false := by rw [Grammar.isSideType, if_neg (by omega)]
  rcases keys_of (upper := upper) hd t (by omega) with ⟨i, h2, h3, h4⟩ | ⟨i, h2, h3, h4⟩ | ⟨h2, h4⟩
  · have := h2.1; omega
  · have := h2.1; omega
  · rw [findRules_eq hm h4 hs hside, ht, show [eoiTokenType, anyToken] = [eoiTokenType] ++ [anyToken] from rfl, firstRules_skip]
    intro k' hk'
    cases List.mem_singleton.mp hk'
    exact h0

end Rules

end Verif.Proof
