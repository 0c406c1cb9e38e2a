/-
Meaning of a compiled grammar.
-/
import Verif.Proof.Compile
import Verif.Props.Compile
import Verif.Props.Nodes
import Verif.Props.Tables

namespace Verif.Proof

open Verif.Model Verif.Spec Verif.Spec.Ebnf Verif.Props

/-- Tables built from entries mean the entries. -/
theorem buildGrammar_means {pr : PR} (hok : pr.Ok) {fs fs' : List Nat} {t : Tables} (h : pr.buildGrammar fs = some (t, fs')) :
    Means t (pr.dropUnused fs).1.rules ∧ fs' = (pr.dropUnused fs).2 ∧
      t.states.length = (pr.dropUnused fs).1.states.length ∧
      ∀ (s : Nat) (gs : GState), t.states[s]? = some gs → ∃ e, (pr.dropUnused fs).1.states[s]? = some e ∧ gs.types = e.types := by
  have hok' := dropUnused_ok (firsts := fs) hok
  have hk := ok_keys hok'
  obtain ⟨t', h2, h3, h4⟩ := C27_tables_mean_entries (pr.dropUnused fs).1 hk.1 hk.2
  unfold PR.buildGrammar at h
  dsimp only at h
  rw [h2] at h
  cases h
  refine ⟨⟨fun s gs hs keys => ?_, fun s k r hr => hok'.tok s k r hr⟩, rfl, h3, fun s gs hs => ?_⟩
  · have hlt := (List.getElem?_eq_some_iff.mp hs).1
    rw [h3] at hlt
    obtain ⟨gs', h5, -, h6⟩ := h4 s _ (List.getElem?_eq_getElem hlt)
    rw [hs] at h5; cases h5
    exact h6 keys
  · have hlt := (List.getElem?_eq_some_iff.mp hs).1
    rw [h3] at hlt
    obtain ⟨gs', h5, h6, -⟩ := h4 s _ (List.getElem?_eq_getElem hlt)
    rw [hs] at h5; cases h5
    exact ⟨_, List.getElem?_eq_getElem hlt, h6⟩

/-- First sets found while compiling. -/
theorem resolved_sets {bodies : List Chunk} {order2 order3 : List Nat} {fuel : Nat} {ft : Nat → Finset Int}
    (hwf : ∀ c ∈ bodies, WF c) (hdef : ∀ c ∈ bodies, ∀ j ∈ refs c, j < bodies.length)
    (h2 : order2.Perm (List.range bodies.length)) (h3 : order3.Perm (List.range bodies.length))
    (h : resolveDependencies (fun i => (bodies[i]?).getD .eoi) (fun i => ((bodies[i]?).getD .eoi).nodes)
      order2 order3 fuel = .done (.ok ft)) :
    (∀ i < bodies.length, ∀ k, k ∈ ft i ↔ Starts (fun i => (bodies[i]?).getD .eoi) i k) ∧
    (∀ i < bodies.length, (ft i).Nonempty) ∧ ∀ i, bodies.length ≤ i → ft i = ∅ := by
  have hmem : ∀ i < bodies.length, (bodies[i]?).getD .eoi ∈ bodies := by
    intro i hi
    rw [List.getElem?_eq_getElem hi]
    exact List.getElem_mem hi
  obtain ⟨N, hN⟩ := C24_first_sets (fun i => (bodies[i]?).getD .eoi) (fun i => ((bodies[i]?).getD .eoi).nodes) bodies.length
    order2 order3 (fun i hi => hwf _ (hmem i hi)) (fun i hi => nodes_eq _) (fun i hi => hdef _ (hmem i hi)) h2 h3
  obtain ⟨r, hr, hs⟩ := hN (max N fuel) (Nat.le_max_left _ _)
  rw [resolve_mono (Nat.le_max_right N fuel) h] at hr
  cases hr
  exact hs

/-- Definitions without `$` do not start with it. -/
theorem starts_nonneg {body : Nat → Chunk} {n : Nat} (hn : ∀ i < n, ∀ w ∈ lang (body i), Sym.eoi ∉ w)
    (hd : ∀ i < n, ∀ w ∈ lang (body i), ∀ j, Sym.node j ∈ w → j < n) {i : Nat} {k : Int}
    (h : Starts body i k) : i < n → 0 ≤ k := by
  induction h with
  | tok _ => intro _; omega
  | eoi hw => intro hi; exact absurd (List.mem_cons_self ..) (hn _ hi _ hw)
  | node hw _ ih => intro hi; exact ih (hd _ hi _ hw _ (List.mem_cons_self ..))

mutual

/-- Nested nodes of a word are mentioned in the expression. -/
theorem lang_refs : ∀ (c : Chunk), ∀ w ∈ lang c, ∀ j, Sym.node j ∈ w → j ∈ refs c
  | .token t, w, hw, j, hj => by
    rw [lang] at hw
    have : w = [.tok t] := hw
    simp [this] at hj
  | .eoi, w, hw, j, hj => by
    rw [lang] at hw
    have : w = [.eoi] := hw
    simp [this] at hj
  | .node i, w, hw, j, hj => by
    rw [lang] at hw
    have : w = [.node i] := hw
    subst this
    simp at hj
    simp [refs, hj]
  | .variant cs, w, hw, j, hj => by
    rw [lang] at hw
    rw [refs]
    exact langAny_refs cs w hw j hj
  | .group cs opt rep, w, hw, j, hj => by
    rw [lang] at hw
    rw [refs]
    split at hw
    · obtain ⟨S, rfl, hS⟩ := Language.mem_kstar.mp hw
      obtain ⟨v, hv, hm⟩ := List.mem_flatten.mp hj
      exact langSeq_refs cs v (hS v hv) j hm
    · split at hw
      · rcases (Language.mem_add ..).mp hw with hw | hw
        · rw [Language.mem_one] at hw; simp [hw] at hj
        · exact langSeq_refs cs w hw j hj
      · exact langSeq_refs cs w hw j hj

theorem langAny_refs : ∀ (cs : List Chunk), ∀ w ∈ langAny cs, ∀ j, Sym.node j ∈ w → j ∈ refsAll cs
  | [], w, hw, _, _ => by rw [langAny] at hw; exact absurd hw (Language.notMem_zero w)
  | c :: cs, w, hw, j, hj => by
    rw [langAny] at hw
    rw [refsAll, Finset.mem_union]
    rcases (Language.mem_add ..).mp hw with hw | hw
    · exact .inl (lang_refs c w hw j hj)
    · exact .inr (langAny_refs cs w hw j hj)

theorem langSeq_refs : ∀ (cs : List Chunk), ∀ w ∈ langSeq cs, ∀ j, Sym.node j ∈ w → j ∈ refsAll cs
  | [], w, hw, _, hj => by rw [langSeq, Language.mem_one] at hw; simp [hw] at hj
  | c :: cs, w, hw, j, hj => by
    rw [langSeq] at hw
    rw [refsAll, Finset.mem_union]
    obtain ⟨u, hu, v, hv, rfl⟩ := Language.mem_mul.mp hw
    rcases List.mem_append.mp hj with hm | hm
    · exact .inl (lang_refs c u hu j hm)
    · exact .inr (langSeq_refs cs v hv j hm)

end

/-- Tables of a compiled grammar. -/
theorem compiled_means {upper : List Nat → List Nat} {find : Nat → List Nat → List Nat} {ts : List GToken}
    {bodies : List Chunk} {order1 order2 order3 : List Nat} {fuel : Nat} {g : Grammar}
    (h : compile upper find ts (bodies.map some) order1 order2 order3 fuel = .done (.ok g)) (hwf : ∀ c ∈ bodies, WF c) :
    ∃ m, Means g.tables m := by
  obtain ⟨ttypes, ft, pr, fs, pr', -, -, -, hres, hb, -, has, hg, -⟩ := compile_steps h
  have hid : (bodies.map some).filterMap id = bodies := by simp
  rw [hid] at hb
  obtain ⟨pr2, fs2, hb2, hgr, -, hfirst⟩ := buildNodes_spec ft bodies hwf ok_empty
  rw [hb] at hb2; cases hb2
  obtain ⟨hre, -⟩ := assignStateTypes_spec fs has
  obtain ⟨hmeans, -⟩ := buildGrammar_means (hre.ok hgr.ok) hg
  exact ⟨_, hmeans⟩

end Verif.Proof
