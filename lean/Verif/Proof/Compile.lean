/-
Parts of a compiled grammar.
-/
import Verif.Model.Compile
import Verif.Proof.ChunkNodes
import Verif.Proof.DropStates
import Verif.Proof.Parse

namespace Verif.Proof

open Verif.Model

/-- Only expected types differ. -/
structure Retyped (pr pr' : PR) : Prop where
  cells : pr'.cells = pr.cells
  len : pr'.states.length = pr.states.length
  entry : ∀ (s : Nat) (e' : Entry), pr'.states[s]? = some e' →
    ∃ e, pr.states[s]? = some e ∧ e'.keys = e.keys ∧ e'.pos = e.pos ∧ e'.neg = e.neg

theorem Retyped.refl (pr : PR) : Retyped pr pr := ⟨rfl, rfl, fun _ e h => ⟨e, h, rfl, rfl, rfl⟩⟩

theorem Retyped.trans {a b c : PR} (h1 : Retyped a b) (h2 : Retyped b c) : Retyped a c := by
  refine ⟨h2.cells.trans h1.cells, h2.len.trans h1.len, fun s e h => ?_⟩
  obtain ⟨e1, h3, h4, h5, h6⟩ := h2.entry s e h
  obtain ⟨e2, h7, h8, h9, h10⟩ := h1.entry s e1 h3
  exact ⟨e2, h7, h4.trans h8, h5.trans h9, h6.trans h10⟩

theorem Retyped.slot {pr pr' : PR} (h : Retyped pr pr') {e e' : Entry} (h2 : e'.pos = e.pos)
    (h3 : e'.neg = e.neg) (k : Int) : pr'.slot e' k = pr.slot e k := by
  unfold PR.slot
  rw [h2, h3, h.cells]

theorem Retyped.rules {pr pr' : PR} (h : Retyped pr pr') (s : Nat) (k : Int) : pr'.rules s k = pr.rules s k := by
  unfold PR.rules
  cases hs : pr'.states[s]? with
  | none =>
    have : pr.states[s]? = none := by
      rw [List.getElem?_eq_none_iff] at hs ⊢
      rw [h.len] at hs; exact hs
    rw [this]
  | some e' =>
    obtain ⟨e, h1, h2, h3, h4⟩ := h.entry s e' hs
    rw [h1]
    exact h.slot h3 h4 k

theorem Retyped.ok {pr pr' : PR} (h : Retyped pr pr') (hok : pr.Ok) : pr'.Ok where
  ref := by
    intro s e k r hs hr
    obtain ⟨e1, h1, h2, h3, h4⟩ := h.entry s e hs
    rw [h.cells]
    rw [h4] at hr
    exact hok.ref s e1 k r h1 hr
  keys := by
    intro s e k hs
    obtain ⟨e1, h1, h2, h3, h4⟩ := h.entry s e hs
    rw [h2, h.slot h3 h4]
    exact hok.keys s e1 k h1
  tok := by intro s k r hr; rw [h.rules] at hr; exact hok.tok s k r hr
  one := by intro s k hk; rw [h.rules]; exact hok.one s k hk
  tgt := by intro s k r hr; rw [h.rules] at hr; rw [h.len]; exact hok.tgt s k r hr

theorem assignRange_spec {default : BitVec 64} {ttypes : List (BitVec 64)} (count : Nat) {j : Nat} {pr pr' : PR}
    (h : assignRange default ttypes count j pr = some pr') :
    Retyped pr pr' ∧ (∀ (s : Nat) (e : Entry), pr'.states[s]? = some e →
      (s < j ∨ j + count ≤ s → pr.states[s]? = some e) ∧
      (j ≤ s ∧ s < j + count → stateTypes default ttypes e.keys = some e.types)) := by
  induction count generalizing j pr with
  | zero =>
    cases h
    exact ⟨Retyped.refl _, fun s e hs => ⟨fun _ => hs, fun h => by omega⟩⟩
  | succ count ih =>
    rw [assignRange, Option.bind_eq_some_iff] at h
    obtain ⟨e0, h0, h⟩ := h
    rw [Option.bind_eq_some_iff] at h
    obtain ⟨types, ht, h⟩ := h
    obtain ⟨h1, h2⟩ := ih h
    have hlt := (List.getElem?_eq_some_iff.mp h0).1
    have hr : Retyped pr { pr with states := pr.states.set j { e0 with types := types } } := by
      refine ⟨rfl, by simp, fun s e hs => ?_⟩
      dsimp only at hs
      rw [List.getElem?_set] at hs
      split at hs
      · rename_i hjs
        subst hjs
        cases hs
        exact ⟨e0, h0, rfl, rfl, rfl⟩
      · exact ⟨e, hs, rfl, rfl, rfl⟩
    refine ⟨hr.trans h1, fun s e hs => ?_⟩
    obtain ⟨h3, h4⟩ := h2 s e hs
    dsimp only at h3
    refine ⟨fun hcase => ?_, fun hcase => ?_⟩
    · have := h3 (by omega)
      rw [List.getElem?_set, if_neg (by omega)] at this
      exact this
    · by_cases hsj : s = j
      · subst hsj
        have := h3 (.inl (by omega))
        rw [List.getElem?_set, if_pos rfl, if_pos hlt] at this
        cases this
        exact ht
      · exact h4 (by omega)

theorem assignStateTypes_spec {default : BitVec 64} {ttypes : List (BitVec 64)} (fs : List Nat) {pr pr' : PR}
    (h : assignStateTypes default ttypes fs pr = some pr') :
    Retyped pr pr' ∧ (∀ (s : Nat) (e : Entry), pr'.states[s]? = some e →
      ((∀ f ∈ fs, s < f) → pr.states[s]? = some e) ∧
      (stateTypes default ttypes e.keys = some e.types ∨ pr.states[s]? = some e) ∧
      (∀ f, fs.head? = some f → f ≤ s → stateTypes default ttypes e.keys = some e.types)) := by
  induction fs generalizing pr with
  | nil =>
    cases h
    exact ⟨Retyped.refl _, fun s e hs => ⟨fun _ => hs, .inr hs, by simp⟩⟩
  | cons f fs ih =>
    cases fs with
    | nil =>
      rw [assignStateTypes] at h
      obtain ⟨h1, h2⟩ := assignRange_spec _ h
      refine ⟨h1, fun s e hs => ?_⟩
      obtain ⟨h3, h4⟩ := h2 s e hs
      have hlt : s < pr.states.length := by rw [← h1.len]; exact (List.getElem?_eq_some_iff.mp hs).1
      refine ⟨fun hf => h3 (.inl (hf f (by simp))), ?_, ?_⟩
      · by_cases hsf : s < f
        · exact .inr (h3 (.inl hsf))
        · exact .inl (h4 (by omega))
      · intro f' hf' hle
        simp only [List.head?_cons, Option.some.injEq] at hf'
        subst hf'
        exact h4 (by omega)
    | cons f' fs =>
      rw [assignStateTypes, Option.bind_eq_some_iff] at h
      obtain ⟨pr1, h1, h⟩ := h
      obtain ⟨h2, h3⟩ := assignRange_spec _ h1
      obtain ⟨h4, h5⟩ := ih h
      refine ⟨h2.trans h4, fun s e hs => ?_⟩
      obtain ⟨h6, h7, h8⟩ := h5 s e hs
      refine ⟨fun hf => ?_, ?_, ?_⟩
      · have h9 := h6 (fun g hg => hf g (by simp [hg]))
        exact (h3 s e h9).1 (.inl (hf f (by simp)))
      · rcases h7 with h7 | h7
        · exact .inl h7
        · obtain ⟨h9, h10⟩ := h3 s e h7
          by_cases hc : f ≤ s ∧ s < f + (f' - f)
          · exact .inl (h10 hc)
          · exact .inr (h9 (by omega))
      · intro f0 hf0 hle
        simp only [List.head?_cons, Option.some.injEq] at hf0
        subst hf0
        by_cases hlt : f' ≤ s
        · exact h8 f' rfl hlt
        · rcases h7 with h7 | h7
          · exact h7
          · exact (h3 s e h7).2 (by omega)

theorem drain_mono {body : Nat → Chunk} (fuel fuel' : Nat) (hf : fuel ≤ fuel') {st st' : Res}
    (h : Res.drain body fuel st = .done st') : Res.drain body fuel' st = .done st' := by
  induction fuel generalizing st fuel' with
  | zero => cases h
  | succ fuel ih =>
    cases fuel' with
    | zero => omega
    | succ fuel' =>
      rw [Res.drain.eq_def] at h ⊢
      dsimp only at h ⊢
      split at h
      · exact h
      · exact ih fuel' (by omega) h

theorem addLoop_mono {body : Nat → Chunk} {indexes : List Nat} (fuel fuel' : Nat) (hf : fuel ≤ fuel') {ft ft' : Nat → Finset Int}
    (h : addLoop body indexes fuel ft = .done ft') : addLoop body indexes fuel' ft = .done ft' := by
  induction fuel generalizing ft fuel' with
  | zero => cases h
  | succ fuel ih =>
    cases fuel' with
    | zero => omega
    | succ fuel' =>
      rw [addLoop] at h ⊢
      split at h
      · rename_i hq; rw [if_pos hq]; exact ih fuel' (by omega) h
      · rename_i hq; rw [if_neg hq]; exact h

/-- More steps do not change the result of the dependency resolver. -/
theorem resolve_mono {body : Nat → Chunk} {deps : Nat → Finset Nat} {order1 order2 : List Nat} {fuel fuel' : Nat}
    (hf : fuel ≤ fuel') {r : Except (List Nat) (Nat → Finset Int)}
    (h : resolveDependencies body deps order1 order2 fuel = .done r) :
    resolveDependencies body deps order1 order2 fuel' = .done r := by
  unfold resolveDependencies at h ⊢
  cases hd : Res.drain body fuel (Res.start body deps order1) with
  | panic => rw [hd] at h; cases h
  | timeout => rw [hd] at h; cases h
  | done st =>
    rw [hd] at h
    rw [drain_mono fuel fuel' hf hd]
    dsimp only at h ⊢
    split at h
    · rename_i hi; rw [if_pos hi]; exact h
    · rename_i hi
      rw [if_neg hi]
      cases ha : addLoop body (order2.filter fun i => st.deps i ≠ ∅) fuel st.ft with
      | panic => rw [ha] at h; cases h
      | timeout => rw [ha] at h; cases h
      | done ft =>
        rw [ha] at h
        rw [addLoop_mono fuel fuel' hf ha]
        exact h

/-- Steps of a successful compilation. -/
theorem compile_steps {upper : List Nat → List Nat} {find : Nat → List Nat → List Nat} {ts : List GToken}
    {defs : List (Option Chunk)} {order1 order2 order3 : List Nat} {fuel : Nat} {g : Grammar}
    (h : compile upper find ts defs order1 order2 order3 fuel = .done (.ok g)) :
    ∃ ttypes ft pr fs pr', assignTokenTypes upper find ts = .ok ttypes ∧
      findUndefinedNodes (fun i => (defs[i]?).getD none) order1 = [] ∧
      findUnusedNodes (fun i => (((defs.filterMap id)[i]?).getD .eoi).nodes) (defs.filterMap id).length fuel = .done [] ∧
      resolveDependencies (fun i => ((defs.filterMap id)[i]?).getD .eoi) (fun i => (((defs.filterMap id)[i]?).getD .eoi).nodes)
        order2 order3 fuel = .done (.ok ft) ∧
      buildNodes ft (defs.filterMap id) {} = some (pr, fs) ∧
      findRecursions (fun i => nestedNodes pr ((fs[i]?).getD 0) (sorted (pr.keysOf ((fs[i]?).getD 0))))
        (defs.filterMap id).length fuel = .done [] ∧
      assignStateTypes (sideTypes ts) ttypes fs pr = some pr' ∧
      pr'.buildGrammar fs = some (g.tables, g.firsts) ∧ g.tokens = ts := by
  unfold compile at h
  split at h
  · cases h
  · rename_i ttypes htt
    split at h
    · cases h
    · rename_i hund
      rw [bindRun_done] at h
      obtain ⟨unused, hun, h⟩ := h
      split at h
      · cases h
      · rw [bindRun_done] at h
        obtain ⟨r, hres, h⟩ := h
        split at h
        · cases h
        · rename_i ft
          obtain ⟨⟨pr, fs⟩, hb, h⟩ := orPanic_done.mp h
          rw [bindRun_done] at h
          obtain ⟨rec, hrec, h⟩ := h
          split at h
          · cases h
          · obtain ⟨pr', has, h⟩ := orPanic_done.mp h
            obtain ⟨r, hr, h⟩ := orPanic_done.mp h
            cases h
            exact ⟨ttypes, ft, pr, fs, pr', htt, hund, hun, hres, hb, hrec, has, hr, rfl⟩

theorem fetched_all {defs : List (Option Chunk)} {order : List Nat} (ho : order.Perm (List.range defs.length))
    (h : findUndefinedNodes (fun i => (defs[i]?).getD none) order = []) : defs = (defs.filterMap id).map some := by
  have hall : ∀ d ∈ defs, d.isSome := by
    intro d hd
    obtain ⟨i, hi, rfl⟩ := List.getElem_of_mem hd
    by_contra hn
    have : i ∈ ([] : List Nat) := by
      rw [← h, findUndefinedNodes, List.mem_filter, ho.mem_iff]
      refine ⟨List.mem_range.mpr hi, ?_⟩
      rw [List.getElem?_eq_getElem hi]
      simpa using hn
    simp at this
  clear h ho
  induction defs with
  | nil => rfl
  | cons d ds ih =>
    have h1 := hall d (by simp)
    obtain ⟨c, rfl⟩ := Option.isSome_iff_exists.mp h1
    have h2 := ih (fun d hd => hall d (by simp [hd]))
    exact congrArg (some c :: ·) h2

/-- The first node starts at state 0. -/
theorem buildNodes_head {ft : Nat → Finset Int} {cs : List Chunk} {pr pr' : PR} {fs : List Nat}
    (h : buildNodes ft cs pr = some (pr', fs)) (hne : cs ≠ []) : fs.head? = some pr.states.length := by
  cases cs with
  | nil => exact absurd rfl hne
  | cons c cs =>
    rw [buildNodes, Option.bind_eq_some_iff] at h
    obtain ⟨q, -, h⟩ := h
    rw [Option.map_eq_some_iff] at h
    obtain ⟨r, -, h⟩ := h
    cases h
    rfl

mutual

theorem nodes_eq : (c : Chunk) → c.nodes = Verif.Spec.Ebnf.refs c
  | .token _ => rfl
  | .eoi => rfl
  | .node _ => rfl
  | .variant cs => by rw [Chunk.nodes, Verif.Spec.Ebnf.refs, nodesOf_eq cs]
  | .group cs _ _ => by rw [Chunk.nodes, Verif.Spec.Ebnf.refs, nodesOf_eq cs]

theorem nodesOf_eq : (cs : List Chunk) → Chunk.nodesOf cs = Verif.Spec.Ebnf.refsAll cs
  | [] => rfl
  | c :: cs => by rw [Chunk.nodesOf, Verif.Spec.Ebnf.refsAll, nodes_eq c, nodesOf_eq cs]

end

end Verif.Proof
