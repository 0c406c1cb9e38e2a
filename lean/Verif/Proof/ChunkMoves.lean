/-
Definitions without left recursion and without empty nodes.
-/
import Mathlib.Order.WellFounded
import Verif.Proof.ChunkIdle
import Verif.Props.Nodes

namespace Verif.Proof

open Verif Verif.Model Verif.Spec Verif.Spec.Ebnf Verif.Props

mutual

theorem mayBeEmpty_none : (c : Chunk) → mayBeEmpty (fun _ => false) c = nullable c
  | .token _ => rfl
  | .eoi => rfl
  | .node _ => rfl
  | .variant cs => by rw [mayBeEmpty, nullable, mayBeEmptyAny_none cs]
  | .group cs _ _ => by rw [mayBeEmpty, nullable, mayBeEmptySeq_none cs]

theorem mayBeEmptyAny_none : (cs : List Chunk) → mayBeEmptyAny (fun _ => false) cs = nullableAny cs
  | [] => rfl
  | c :: cs => by rw [mayBeEmptyAny, nullableAny, mayBeEmpty_none c, mayBeEmptyAny_none cs]

theorem mayBeEmptySeq_none : (cs : List Chunk) → mayBeEmptySeq (fun _ => false) cs = nullableSeq cs
  | [] => rfl
  | c :: cs => by rw [mayBeEmptySeq, nullableSeq, mayBeEmpty_none c, mayBeEmptySeq_none cs]

end

mutual

theorem left_word : (c : Chunk) → WF c → ∀ j ∈ leftNodes (fun _ => false) c, ∃ w, (Sym.node j :: w) ∈ lang c
  | .token _, _, j, h => by simp [leftNodes] at h
  | .eoi, _, j, h => by simp [leftNodes] at h
  | .node i, _, j, h => by
    simp only [leftNodes, Finset.mem_singleton] at h
    subst h
    exact ⟨[], by rw [lang]; rfl⟩
  | .variant cs, hw, j, h => by
    rw [leftNodes] at h
    rw [WF] at hw
    rw [lang]
    exact leftAny_word cs hw.2 j h
  | .group cs opt rep, hw, j, h => by
    rw [leftNodes] at h
    rw [WF] at hw
    obtain ⟨w, hw⟩ := leftSeq_word cs hw.2.2 j h
    refine ⟨w, ?_⟩
    rw [lang]
    split
    · exact le_kstar (a := langSeq cs) hw
    · split
      · exact (Language.mem_add ..).mpr (Or.inr hw)
      · exact hw

theorem leftAny_word : (cs : List Chunk) → WFs cs → ∀ j ∈ leftNodesAny (fun _ => false) cs, ∃ w, (Sym.node j :: w) ∈ langAny cs
  | [], _, j, h => by simp [leftNodesAny] at h
  | c :: cs, hw, j, h => by
    rw [leftNodesAny, Finset.mem_union] at h
    rw [WFs] at hw
    rw [langAny]
    rcases h with h | h
    · obtain ⟨w, h⟩ := left_word c hw.1 j h
      exact ⟨w, (Language.mem_add ..).mpr (Or.inl h)⟩
    · obtain ⟨w, h⟩ := leftAny_word cs hw.2 j h
      exact ⟨w, (Language.mem_add ..).mpr (Or.inr h)⟩

theorem leftSeq_word : (cs : List Chunk) → WFs cs → ∀ j ∈ leftNodesSeq (fun _ => false) cs, ∃ w, (Sym.node j :: w) ∈ langSeq cs
  | [], _, j, h => by simp [leftNodesSeq] at h
  | c :: cs, hw, j, h => by
    rw [leftNodesSeq, Finset.mem_union] at h
    rw [WFs] at hw
    rw [langSeq]
    rcases h with h | h
    · obtain ⟨w, h⟩ := left_word c hw.1 j h
      obtain ⟨w', h'⟩ := langSeq_nonempty cs hw.2
      exact ⟨w ++ w', Language.append_mem_mul h h'⟩
    · split at h
      · rename_i he
        rw [mayBeEmpty_none] at he
        obtain ⟨w, h⟩ := leftSeq_word cs hw.2 j h
        exact ⟨w, by simpa using Language.append_mem_mul ((nullable_iff c).mp he) h⟩
      · simp at h

end

/-- Definitions without empty nodes, left recursion, `$` and repeated expressions that may be empty. -/
theorem moves_of_definite {bodies : List Chunk} (hwf : ∀ c ∈ bodies, WF c) (hne : ∀ c ∈ bodies, NoEoi c)
    (hnull : ∀ c ∈ bodies, nullable c = false) (hloop : ∀ c ∈ bodies, LoopsMove (fun _ => false) c)
    (hrec : ∀ i < bodies.length, ¬ LeftRecursive bodies i) :
    Moves (fun _ => false) bodies := by
  refine ⟨fun i c hc h => ?_, hloop, ?_⟩
  · have hm := List.mem_of_getElem? hc
    rw [mayBeEmpty_none, hnull c hm] at h
    exact absurd (h.resolve_left (by simp)) (fun h => h (hne c hm))
  · let step : Nat → Nat → Prop := fun j i => ∃ c, bodies[i]? = some c ∧ j ∈ leftNodes (fun _ => false) c
    have hword : ∀ j i, step j i → ∃ c w, bodies[i]? = some c ∧ (Sym.node j :: w) ∈ lang c := by
      rintro j i ⟨c, hc, hj⟩
      obtain ⟨w, hw⟩ := left_word c (hwf c (List.mem_of_getElem? hc)) j hj
      exact ⟨c, w, hc, hw⟩
    have hwf : WellFounded step := by
      rw [wellFounded_iff_isEmpty_descending_chain]
      constructor
      rintro ⟨f, hf⟩
      obtain ⟨c, hc, -⟩ := hf 0
      exact hrec (f 0) (List.getElem?_eq_some_iff.mp hc).1 ⟨f, rfl, fun t => hword _ _ (hf t)⟩
    classical
    let F : (i : Nat) → ((j : Nat) → step j i → Nat) → Nat := fun i ih =>
      (leftNodes (fun _ => false) ((bodies[i]?).getD .eoi)).sup fun j => if h : step j i then ih j h + 1 else 0
    refine ⟨hwf.fix F, fun i c hc j hj => ?_⟩
    have hs : step j i := ⟨c, hc, hj⟩
    rw [hwf.fix_eq F i]
    show _ < (leftNodes (fun _ => false) ((bodies[i]?).getD .eoi)).sup fun j => if h : step j i then hwf.fix F j + 1 else 0
    have hj' : j ∈ leftNodes (fun _ => false) ((bodies[i]?).getD .eoi) := by rw [hc]; exact hj
    have h1 := Finset.le_sup (f := fun j => if h : step j i then hwf.fix F j + 1 else 0) hj'
    simp only [dif_pos hs] at h1
    exact h1

end Verif.Proof
