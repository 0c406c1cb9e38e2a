/-
C29: node machines built from EBNF expressions.

The words are sequences of token types and nested nodes; a machine reads a word when there is a path of rules, where a
fallback rule may be used at any time.
-/
import Verif.Proof.ChunkNodes

namespace Verif.Props

open Verif.Model Verif.Spec Verif.Spec.Ebnf
open scoped Computability

mutual

theorem loopOk_noEoi : ∀ (al : Bool) (c : Chunk), LoopOk al c → NoEoi c
  | _, .token _, _ => by simp [NoEoi]
  | _, .eoi, h => by simp [LoopOk] at h
  | _, .node _, _ => by simp [NoEoi]
  | _, .variant cs, h => by
    rw [LoopOk] at h
    rw [NoEoi]
    exact loopOkAny_noEoi cs h
  | al, .group cs opt rep, h => by
    rw [LoopOk] at h
    rw [NoEoi]
    by_cases hr : rep = true
    · rw [if_pos hr] at h
      exact loopOkSeq_noEoi _ cs h.2
    · rw [if_neg hr] at h
      exact loopOkSeq_noEoi _ cs h

theorem loopOkAny_noEoi : ∀ cs : List Chunk, LoopOkAny cs → NoEois cs
  | [], _ => by simp [NoEois]
  | c :: cs, h => by
    rw [LoopOkAny] at h
    rw [NoEois]
    exact ⟨loopOk_noEoi false c h.1, loopOkAny_noEoi cs h.2⟩

theorem loopOkSeq_noEoi : ∀ (al : Bool) (cs : List Chunk), LoopOkSeq al cs → NoEois cs
  | _, [], _ => by simp [NoEois]
  | al, c :: cs, h => by
    rw [LoopOkSeq] at h
    rw [NoEois]
    exact ⟨loopOk_noEoi al c h.1, loopOkSeq_noEoi true cs h.2⟩

end

/-- C29: compiling node definitions never panics, and the machine of every node accepts every word described by the
definition of the node. First token sets must be what `resolveDependencies` gives: non-empty, of types and literals. -/
theorem C29_described_is_accepted (ft : Nat → Finset Int) (bodies : List Chunk)
    (hft : ∀ i, ∀ k ∈ ft i, 0 ≤ k) (hwf : ∀ c ∈ bodies, WF c ∧ IsBody c ∧ NoEoi c)
    (hrf : ∀ c ∈ bodies, ∀ i ∈ refs c, (ft i).Nonempty) :
    ∃ pr fs, buildNodes ft bodies {} = some (pr, fs) ∧ fs.length = bodies.length ∧
      ∀ (i : Nat) (c : Chunk) (s : Nat), bodies[i]? = some c → fs[i]? = some s →
        ∀ w ∈ lang c, Accepts pr.rules s w := by
  obtain ⟨pr, fs, he, hg, hl, hall⟩ := buildNodes_spec ft bodies (fun c hc => (hwf c hc).1) ok_empty
  refine ⟨pr, fs, he, hl, fun i c s hc hs w hw => ?_⟩
  obtain ⟨p, q, hp, _, hs', hb, hlt, hgr⟩ := hall i c s hc hs
  have hmem : c ∈ bodies := List.mem_of_getElem? hc
  obtain ⟨h1, h2, h3⟩ := hwf c hmem
  exact body_accepts ft hft c h1 h2 h3 (hrf c hmem) hp hs' hb (fun x k _ hx => hgr.other x k (by omega)) hw

/-- C29, partial: for definitions where a repeated group does not share its starting point with something that cannot
follow it (`LoopOk`; without explicit end of input), the machine of every node accepts exactly the described words.
Missing: the other definitions, for which the statement is false (see the next theorems), and definitions with `$`. -/
theorem C29_machine_language_partial (ft : Nat → Finset Int) (bodies : List Chunk)
    (hft : ∀ i, ∀ k ∈ ft i, 0 ≤ k) (hwf : ∀ c ∈ bodies, WF c ∧ IsBody c ∧ LoopOk true c)
    (hrf : ∀ c ∈ bodies, ∀ i ∈ refs c, (ft i).Nonempty) :
    ∃ pr fs, buildNodes ft bodies {} = some (pr, fs) ∧ fs.length = bodies.length ∧
      ∀ (i : Nat) (c : Chunk) (s : Nat), bodies[i]? = some c → fs[i]? = some s →
        ∀ w, Accepts pr.rules s w ↔ w ∈ lang c := by
  obtain ⟨pr, fs, he, hl, hall⟩ := C29_described_is_accepted ft bodies hft
    (fun c hc => ⟨(hwf c hc).1, (hwf c hc).2.1, loopOk_noEoi true c (hwf c hc).2.2⟩) hrf
  refine ⟨pr, fs, he, hl, fun i c s hc hs w => ⟨fun ha => ?_, hall i c s hc hs w⟩⟩
  obtain ⟨D, hDf, hD, hDs⟩ := buildNodes_sound ft hft bodies (fun c hc => (hwf c hc).1) (fun c hc => (hwf c hc).2.2)
    ok_empty (fun _ => 1) rfl (fun j k r hr => by simp [PR.rules] at hr) he
  have := accepts_sound (m := pr.rules) (D := D) (hDf _ (by simp [finalState])) (fun j k r hr => hD j k r hr) ha
  rwa [hDs i c s hc hs] at this

/-- `root = 'a', {'b' | root}, ['c']`. -/
def sampleBody : Chunk :=
  .group [.token 0, .group [.variant [.token 1, .node 0]] true true, .group [.token 2] true false] false false

example : (∀ c ∈ [sampleBody], WF c ∧ IsBody c ∧ LoopOk true c) ∧
    (∀ c ∈ [sampleBody], ∀ i ∈ refs c, ((fun _ => {0} : Nat → Finset Int) i).Nonempty) ∧
    [.tok 0, .node 0, .tok 1, .tok 2] ∈ lang sampleBody := by
  refine ⟨?_, by simp, ?_⟩
  · simp [sampleBody, WF, WFs, IsBody, LoopOk, LoopOkSeq, LoopOkAny]
  · simp only [sampleBody, lang, langSeq, langAny]
    refine Language.mem_mul.mpr ⟨[.tok 0], rfl, [.node 0, .tok 1, .tok 2], ?_, rfl⟩
    refine Language.mem_mul.mpr ⟨[.node 0, .tok 1], ?_, [.tok 2], ?_, rfl⟩
    · refine Language.mem_kstar.mpr ⟨[[.node 0], [.tok 1]], rfl, ?_⟩
      intro y hy
      simp only [List.mem_cons, List.not_mem_nil, or_false] at hy
      refine Language.mem_mul.mpr ⟨y, ?_, [], Language.nil_mem_one, by simp⟩
      rcases hy with rfl | rfl
      · exact (Language.mem_add ..).mpr (Or.inr ((Language.mem_add ..).mpr (Or.inl rfl)))
      · exact (Language.mem_add ..).mpr (Or.inl rfl)
    · refine Language.mem_mul.mpr ⟨[.tok 2], ?_, [], Language.nil_mem_one, rfl⟩
      exact (Language.mem_add ..).mpr (Or.inr (Language.mem_mul.mpr ⟨[.tok 2], rfl, [], Language.nil_mem_one, rfl⟩))

/-- `root = ({'a'} | 'b'), 'c'`. -/
def loopInVariant : Chunk :=
  .group [.variant [.group [.token 0] true true, .token 1], .token 2] false false

/-- `root = [{'a'}, 'b'], 'c'`. -/
def loopInOption : Chunk :=
  .group [.group [.group [.token 0] true true, .token 1] true false, .token 2] false false

theorem mem_group1 {c : Chunk} {w : List Sym} : w ∈ langSeq [c] ↔ w ∈ lang c := by
  rw [langSeq, langSeq, mul_one]

theorem kstar_single {c : Chunk} {x : Sym} {w : List Sym} (h : w ∈ (langSeq [c])∗) (hc : ∀ v, v ∈ lang c → v = [x]) :
    ∀ y ∈ w, y = x := by
  obtain ⟨S, rfl, hS⟩ := Language.mem_kstar.mp h
  intro y hy
  obtain ⟨v, hv, hyv⟩ := List.mem_flatten.mp hy
  have := hc v (mem_group1.mp (hS v hv))
  subst this
  simpa using hyv

/-- C29 is false in general: a repeated group as a variant lets the other variants follow it. The machine of
`({'a'} | 'b'), 'c'` accepts `a b c`. -/
theorem C29_variant_after_repeat :
    (WF loopInVariant ∧ IsBody loopInVariant ∧ NoEoi loopInVariant) ∧
    (∃ pr, buildNodes (fun _ => ∅) [loopInVariant] {} = some (pr, [0]) ∧
      Accepts pr.rules 0 [.tok 0, .tok 1, .tok 2]) ∧
    [.tok 0, .tok 1, .tok 2] ∉ lang loopInVariant := by
  refine ⟨by simp [loopInVariant, WF, WFs, IsBody, NoEoi, NoEois], ⟨_, rfl, ?_⟩, ?_⟩
  · refine Accepts.read (s := 0) (k := 0) (r := ⟨0, 0, sameNode⟩) (by decide) (by decide) ?_
    refine Accepts.read (s := 0) (k := 1) (r := ⟨1, 1, sameNode⟩) (by decide) (by decide) ?_
    refine Accepts.read (s := 1) (k := 2) (r := ⟨2, -1, sameNode⟩) (by decide) (by decide) ?_
    exact Accepts.final
  · intro h
    simp only [loopInVariant, lang, langAny, Bool.false_eq_true, if_false, if_true] at h
    rw [langSeq.eq_2] at h
    obtain ⟨u, hu, v, hv, huv⟩ := Language.mem_mul.mp h
    rw [mem_group1, lang] at hv
    have hv' : v = [.tok 2] := hv
    subst hv'
    have hu' : u = [.tok 0, .tok 1] := by
      have : u ++ [.tok 2] = [.tok 0, .tok 1] ++ [Sym.tok 2] := huv
      exact List.append_cancel_right this
    subst hu'
    rw [lang, langAny, langAny, langAny] at hu
    rcases (Language.mem_add ..).mp hu with hu | hu
    · rw [lang, if_pos rfl] at hu
      have := kstar_single (x := .tok 0) hu (fun v hv => by rw [lang] at hv; exact hv) (.tok 1) (by simp)
      simp at this
    · rcases (Language.mem_add ..).mp hu with hu | hu
      · rw [lang] at hu
        have : [Sym.tok 0, .tok 1] = [.tok 1] := hu
        simp at this
      · exact hu

/-- C29 is false in general: after a repeated group at the start of an optional group the rest of the optional group
may be skipped. The machine of `[{'a'}, 'b'], 'c'` accepts `a c`. -/
theorem C29_option_left_halfway :
    (WF loopInOption ∧ IsBody loopInOption ∧ NoEoi loopInOption) ∧
    (∃ pr, buildNodes (fun _ => ∅) [loopInOption] {} = some (pr, [0]) ∧ Accepts pr.rules 0 [.tok 0, .tok 2]) ∧
    [.tok 0, .tok 2] ∉ lang loopInOption := by
  refine ⟨by simp [loopInOption, WF, WFs, IsBody, NoEoi, NoEois], ⟨_, rfl, ?_⟩, ?_⟩
  · refine Accepts.read (s := 0) (k := 0) (r := ⟨0, 0, sameNode⟩) (by decide) (by decide) ?_
    refine Accepts.read (s := 0) (k := 2) (r := ⟨2, -1, sameNode⟩) (by decide) (by decide) ?_
    exact Accepts.final
  · intro h
    simp only [loopInOption, lang, Bool.false_eq_true, if_false] at h
    rw [langSeq.eq_2] at h
    obtain ⟨u, hu, v, hv, huv⟩ := Language.mem_mul.mp h
    rw [mem_group1, lang] at hv
    have hv' : v = [.tok 2] := hv
    subst hv'
    have hu' : u = [.tok 0] := by
      have : u ++ [.tok 2] = [.tok 0] ++ [Sym.tok 2] := huv
      exact List.append_cancel_right this
    subst hu'
    simp only [lang, Bool.false_eq_true, if_false, if_true] at hu
    rcases (Language.mem_add ..).mp hu with hu | hu
    · have := (Language.mem_one _).mp hu
      simp at this
    · rw [langSeq.eq_2] at hu
      obtain ⟨u, hu, v, hv, huv⟩ := Language.mem_mul.mp hu
      rw [mem_group1, lang] at hv
      have hv' : v = [.tok 1] := hv
      subst hv'
      have : (u ++ [Sym.tok 1]).getLast? = some (.tok 0) := by rw [huv]; rfl
      simp at this

end Verif.Props
