/-
C75: the style checker reports what is wrong.
-/
import Verif.Proof.StyleParse
import Verif.Props.Samples

namespace Verif.Props.Style

open Verif Verif.Model Verif.Model.Style Verif.Spec Verif.Spec.Style Verif.Proof Verif.Proof.Style Verif.Props
open Verif.Model.Tree (bindRun Heap treeHeap)

/-- The order of iteration over maps may be any, but all keys are there. -/
def AnyOrder (keys : Reports → List Int × (Int → List Int)) : Prop :=
  ∀ rs, (∃ lines cols, KeysOf rs lines cols) → KeysOf rs (keys rs).1 (keys rs).2

theorem addAll_lines (all : List Line) (rs : Reports) (l : Int) :
    (addAll rs all).rm l ≠ none ↔ rs.rm l ≠ none ∨ ∃ x ∈ all, x.1 = l := by
  induction all generalizing rs with
  | nil => simp [addAll]
  | cons x all ih =>
    show (addAll (rs.report x.1 x.2.1 x.2.2) all).rm l ≠ none ↔ _
    rw [ih]
    have : (rs.report x.1 x.2.1 x.2.2).rm l ≠ none ↔ rs.rm l ≠ none ∨ x.1 = l := by
      unfold Reports.report
      by_cases h : l = x.1
      · cases rs.rm x.1 <;> simp [h]
      · cases rs.rm x.1 <;> simp [h, Ne.symm h]
    rw [this]
    simp [or_assoc, eq_comm]

/-- Maps of reports are finite. -/
theorem keys_exist (all : List Line) : ∃ lines cols, KeysOf (addAll newReports all) lines cols := by
  refine ⟨(all.map (·.1)).dedup, fun l => ((all.filter fun x => x.1 = l).map (·.2.1)).dedup, List.nodup_dedup _, ?_, fun _ => List.nodup_dedup _, ?_⟩
  · intro l
    rw [addAll_lines]
    simp [newReports]
  · intro l c
    rw [addAll_at]
    show _ ↔ lastAt l c all ≠ none
    rw [List.mem_dedup]
    constructor
    · intro h hn
      simp only [List.mem_map, List.mem_filter, decide_eq_true_eq] at h
      obtain ⟨x, ⟨hx, rfl⟩, rfl⟩ := h
      induction all using List.reverseRecOn with
      | nil => cases hx
      | append_singleton all y ih =>
        rw [lastAt, List.foldl_append] at hn
        simp only [List.foldl_cons, List.foldl_nil] at hn
        split at hn
        · cases hn
        · rename_i hy
          rcases List.mem_append.mp hx with hx | hx
          · exact ih hx hn
          · rw [List.mem_singleton] at hx
            subst hx
            exact hy ⟨rfl, rfl⟩
    · intro h
      obtain ⟨m, hm⟩ := Option.ne_none_iff_exists'.mp h
      obtain ⟨a, b, rfl, -⟩ := (lastAt_iff l c m all).mp hm
      simp only [List.mem_map, List.mem_filter, decide_eq_true_eq]
      exact ⟨(l, c, m), ⟨by simp, rfl⟩, rfl⟩

theorem anyOrder_exists : ∃ keys, AnyOrder keys := by
  classical
  exact ⟨fun rs => if h : ∃ p : List Int × (Int → List Int), KeysOf rs p.1 p.2 then h.choose else ([], fun _ => []), by
    rintro rs ⟨lines, cols, h⟩
    have h' : ∃ p : List Int × (Int → List Int), KeysOf rs p.1 p.2 := ⟨(lines, cols), h⟩
    simp only [dif_pos h']
    exact h'.choose_spec⟩

/-- C75, checks of a tree: they end without a panic for any tree that can be checked; what is reported is what is wrong, sorted by
places, the last message for every place. -/
theorem C75_rules {h : Heap} {F : Trees.Forest} {T : Trees.Tree} (hc : Checkable h F T) {keys : Reports → List Int × (Int → List Int)}
    (hk : AnyOrder keys) : ∃ N out, Report (docOf h T).wrong out ∧ ∀ fuel, N ≤ fuel →
      bindRun (inspectCode h fuel T.id) (fun rs => .done (rs.flatten (keys rs).1 (keys rs).2)) = .done out := by
  obtain ⟨N, hN⟩ := ev_inspect hc
  refine ⟨N, _, flatten_report (hk _ (keys_exist _)), fun fuel hf => ?_⟩
  have := hN fuel hf
  dsimp only at this
  rw [this]
  rfl

/-- C75: nothing is reported if and only if nothing is wrong. -/
theorem C75_clean {all out : List Line} (h : Report all out) : out = [] ↔ all = [] := by
  constructor
  · rintro rfl
    by_contra hne
    obtain ⟨a, x, rfl⟩ := (List.eq_nil_or_concat all).resolve_left hne
    have := (h.last x.1 x.2.1 x.2.2).mpr ⟨a, [], by simp, by simp⟩
    cases this
  · rintro rfl
    by_contra hne
    obtain ⟨x, hx⟩ := List.exists_mem_of_ne_nil _ hne
    obtain ⟨a, b, he, -⟩ := (h.last x.1 x.2.1 x.2.2).mp hx
    simp at he

/-- C75: the report is determined by what is wrong. -/
theorem C75_report_unique {all out out' : List Line} (h : Report all out) (h' : Report all out') : out = out' := by
  have hm : ∀ x, x ∈ out ↔ x ∈ out' := fun x => (h.last x.1 x.2.1 x.2.2).trans (h'.last x.1 x.2.1 x.2.2).symm
  have irr : ∀ a : Line, ¬ (a.1 < a.1 ∨ a.1 = a.1 ∧ a.2.1 < a.2.1) := by intro a; simp
  have nd : ∀ {l : List Line}, l.Pairwise (fun a b => a.1 < b.1 ∨ a.1 = b.1 ∧ a.2.1 < b.2.1) → l.Nodup := by
    intro l hl
    refine hl.imp fun {a b} hab => ?_
    rintro rfl
    exact irr a hab
  have hp : out.Perm out' := (List.perm_ext_iff_of_nodup (nd h.sorted) (nd h'.sorted)).mpr hm
  refine hp.eq_of_pairwise (le := fun a b => a.1 < b.1 ∨ a.1 = b.1 ∧ a.2.1 < b.2.1) ?_ h.sorted h'.sorted
  intro a b _ _ h1 h2
  omega

/-- Tokens and the tree of a source that is parsed. -/
structure Parsed (upper : List Nat → List Nat) (pos : SrcPos) (h : Heap) (F : Trees.Forest) (T : Trees.Tree) (items : List Item) (read : List Token) : Prop where
  /-- elements are linked as the tree -/
  checkable : Checkable h F T
  /-- elements are the parsed items -/
  built : Built (lookAt h) names T (.node 0 (some (rootToken pos)) items)
  /-- items are described by the grammar -/
  described : Described grammar upper Words items
  /-- leaves are the tokens read -/
  leaves : leavesOf items = read

/-- C75, the whole check of any source: it ends with a parse error or with a report about the syntax tree of the tokens that were
read. It does not panic. -/
theorem C75_check {re : List Nat → Option Matcher} {lexers : List Lexer} (hl : LexersOf re tokens lexers) (upper : List Nat → List Nat)
    {keys : Reports → List Int × (Int → List Int)} (hk : AnyOrder keys) (q : SrcQueue) {l : SrcList.State Src} (hq : Lexer.Holds q l)
    (hlen : l.length + 1 < 2 ^ 31) (pos : SrcPos) : ∃ N,
      (∃ e, ∀ k, N ≤ k → check keys upper lexers k q pos = .done (.error e)) ∨
      ∃ (pc : PC (LState Unit)) (h : Heap) (F : Trees.Forest) (T : Trees.Tree) (items : List Item) (out : List Line),
        (∀ k, N ≤ k → parse (styleEnv upper lexers k) k ⟨[[]], ⟨q, ()⟩⟩ pos = .done (.ok pc)) ∧
        Parsed upper pos h F T items (consumedBy pc.steps).reduceOption ∧ Report (docOf h T).wrong out ∧
        ∀ k, N ≤ k → check keys upper lexers k q pos = .done (.ok out) := by
  obtain ⟨r, N, hN⟩ := C73_hooks_ends_partial style_compiled style_noEoi (by simp [bodies]) style_below style_moves style_safeMachines
    (withTree { g := grammar, upper := upper, pull := fun _ _ => .panic, unread := fun _ _ => none, passSides := true : PEnv Unit }) rfl
    { g := grammar, lexers := lexers } rfl (style_typesBelow hl) (style_mask hl) (Q := fun _ => True) (style_hooksSafe _) style_hooksBound
    (by intro h; cases h) () trivial q hq hlen pos
  have hp : ∀ k, N ≤ k → parse (styleEnv upper lexers k) k ⟨[[]], ⟨q, ()⟩⟩ pos = .done r := fun k hk => hN k k hk hk
  cases r with
  | error e =>
    refine ⟨N, .inl ⟨e, fun k hk => ?_⟩⟩
    unfold check parseSource
    rw [hp k hk]
    rfl
  | ok pc =>
    have h0 := hp N (le_refl _)
    obtain ⟨items, h1, h2, -, h3⟩ := accepted_tree style_compiled style_loops style_safeMachines style_distinct (styleEnv upper lexers N) rfl
      (feeds_true _) (safeOn_of_safe (safe_of_single rfl) _) h0
    have hplain : ∀ t ∈ leavesOf items, t.typeName ≠ "var-def" := by
      intro t ht
      rw [h1, List.reduceOption_mem_iff] at ht
      exact consumed_in (style_feeds (style_names hl) N) (by intro q hq t ht; simp at hq; subst hq; cases ht) h0 _ ht t rfl
    obtain ⟨w, hw, hsp⟩ := h2
    obtain ⟨g1, -, g3⟩ := spells_good hsp hplain
    have hgood : Good (.node 0 (some (rootToken pos)) items) := by
      refine ⟨g1 (words_ne hw), by simp, g3 ?_⟩
      intro t hs
      exact hs.elim
    obtain ⟨hooks, results, h4, -, h5⟩ := h3
    have ht : TreeHooks (styleEnv upper lexers N) := withTree_hooks
      (pipelineEnv { g := grammar, upper := upper, pull := fun _ _ => .panic, unread := fun _ _ => none, passSides := true : PEnv Unit }
        { g := grammar, lexers := lexers } [layer] N)
    obtain ⟨-, h6⟩ := nodeRun_grows ht names h4
    obtain ⟨F, T, gr, -, -, -, k4, k5, -, k7, rs, rfl⟩ := h6 _ grown_start
    have hlast : pc.lastResult = some T.id := by
      cases h4 with
      | mk hm _ _ =>
        obtain ⟨hs, -, rfl, -, -⟩ := makes_tree ht hm
        obtain ⟨rs', hrs⟩ := h5 rfl _ _ rfl
        simp only [List.cons.injEq] at hrs
        exact hrs.1.symm
    have hc := checkable_of gr.rep k4 k5 k7 hgood
    obtain ⟨M, out, hr, hM⟩ := C75_rules hc hk
    refine ⟨max N M, .inr ⟨pc, _, F, T, items, out, fun k hk => hp k (by omega), ⟨hc, k7, ⟨w, hw, hsp⟩, h1⟩, hr, fun k hk => ?_⟩⟩
    unfold check parseSource
    rw [hp k (by omega)]
    simp only [bindRes, hlast]
    have h8 := hM k (by omega)
    cases hi : inspectCode (treeHeap names pc.log) k T.id with
    | panic => rw [hi] at h8; cases h8
    | timeout => rw [hi] at h8; cases h8
    | done rs =>
      rw [hi] at h8
      cases h8
      rfl

end Verif.Props.Style
