/-
The style checker: checks of columns, structures and indents; the whole check.
-/
import Verif.Proof.StyleSpaces

namespace Verif.Proof.Style

open Verif.Model Verif.Model.Tree Verif.Model.Style Verif.Spec Verif.Spec.Trees Verif.Spec.Select Verif.Spec.Style

variable {h : Heap} {F : Forest} {T : Trees.Tree}

/-! Parts -/

/-- The part with this identifier. -/
def partAt (T : Trees.Tree) (m : Nat) : Trees.Tree := ((parts T).find? fun t => t.id = m).getD T

theorem partAt_id (hc : Checkable h F T) {t : Trees.Tree} (ht : t ∈ parts T) : partAt T t.id = t := by
  unfold partAt
  cases hf : (parts T).find? fun t' => t'.id = t.id with
  | none =>
    rw [List.find?_eq_none] at hf
    have := hf t ht
    simp at this
  | some t' =>
    have h1 := List.mem_of_find?_eq_some hf
    have h2 := List.find?_some hf
    exact tree_unique t' t (parts_of T hc.whole t' h1) (parts_of T hc.whole t ht) (by simpa using h2)

theorem flatMap_partAt {β : Type} (hc : Checkable h F T) (g : Trees.Tree → List β) : ∀ (ts : List Trees.Tree), (∀ t ∈ ts, t ∈ parts T) →
    (ts.map Trees.Tree.id).flatMap (fun m => g (partAt T m)) = ts.flatMap g
  | [], _ => rfl
  | t :: ts, hts => by
    rw [List.map_cons, List.flatMap_cons, List.flatMap_cons, partAt_id hc (hts t (by simp)),
      flatMap_partAt hc g ts fun t ht => hts t (by simp [ht])]

theorem ev_forParts (hc : Checkable h F T) {f : Nat → Nat → Reports → Run Reports} {g : Trees.Tree → List Line} (ts : List Trees.Tree)
    (hts : ∀ t ∈ ts, t ∈ parts T) (rs : Reports) (hf : ∀ t ∈ ts, ∀ rs, Ev (fun fuel => f fuel t.id rs) (addAll rs (g t))) :
    Ev (fun fuel => forEach (f fuel) (ts.map Trees.Tree.id) rs) (addAll rs (ts.flatMap g)) := by
  rw [← flatMap_partAt hc g ts hts]
  refine ev_forEach _ _ fun m hm rs => ?_
  obtain ⟨t, ht, rfl⟩ := List.mem_map.mp hm
  rw [partAt_id hc (hts t ht)]
  exact hf t ht rs

theorem ev_selectParts (hc : Checkable h F T) {e1 e2 : Nat → Extractor} {n : Nat} {ts : List Trees.Tree} (hts : ∀ t ∈ ts, t ∈ parts T)
    {g : Trees.Tree → List Nat} (h1 : Ev (fun f => e1 f n) (ts.map Trees.Tree.id)) (h2 : ∀ t ∈ ts, Ev (fun f => e2 f t.id) (g t)) :
    Ev (fun f => Selector.apply ⟨[e1 f, e2 f], false⟩ [some n]) (ts.flatMap g) := by
  rw [← flatMap_partAt hc g ts hts]
  refine ev_apply2 h1 fun m hm => ?_
  obtain ⟨t, ht, rfl⟩ := List.mem_map.mp hm
  rw [partAt_id hc (hts t ht)]
  exact h2 t ht

theorem isA_fun (names : List String) : isA h names = fun n => decide ((h n).typeName ∈ names) := isA_eq names

theorem deepParts (names : List String) : T.elements.filter (isA h names) = ((docOf h T).namedParts names).map Trees.Tree.id := by
  unfold Doc.namedParts
  rw [isA_fun, ← parts_elements, List.filter_map]
  rfl

theorem namedParts_mem {names : List String} {t : Trees.Tree} (ht : t ∈ (docOf h T).namedParts names) :
    t ∈ parts T ∧ (h t.id).typeName ∈ names := by
  unfold Doc.namedParts at ht
  rw [List.mem_filter] at ht
  exact ⟨ht.1, of_decide_eq_true ht.2⟩

theorem ev_deep (hc : Checkable h F T) (names : List String) :
    Ev (fun f => searchLoop h (isA h names) 0 f (newWalker (some T.id) false) 0 []) (((docOf h T).namedParts names).map Trees.Tree.id) := by
  rw [← deepParts]
  exact ev_search hc (isA h names) true root_part

theorem ev_top (hc : Checkable h F T) (names : List String) {t : Trees.Tree} (ht : t ∈ parts T) :
    Ev (fun f => searchLoop h (isA h names) 2 f (newWalker (some t.id) false) 0 [])
      ((topParts (fun x => decide ((docOf h T).name x ∈ names)) t).map Trees.Tree.id) := by
  rw [topParts_ids]
  have := ev_search hc (isA h names) false ht
  simp only [Bool.false_eq_true, if_false] at this
  have e : topmost (isA h names) t = topmost (fun x => decide ((docOf h T).name x ∈ names)) t := by rw [isA_fun]; rfl
  rw [← e]
  exact this

theorem top_mem {names : List String} {t s : Trees.Tree} (ht : t ∈ parts T)
    (hs : s ∈ topParts (fun x => decide ((docOf h T).name x ∈ names)) t) : s ∈ parts T ∧ (h s.id).typeName ∈ names := by
  obtain ⟨h1, h2⟩ := topParts_sub _ t s hs
  exact ⟨parts_trans T t ht s h1, of_decide_eq_true h2⟩

theorem top_one (name : String) (t : Trees.Tree) : topParts (fun x => decide ((docOf h T).name x ∈ [name])) t =
    topParts (fun x => decide ((docOf h T).name x = name)) t := by
  congr 1
  funext x
  simp

/-- The first token. -/
def firstOf (d : Doc) (t : Trees.Tree) : Token := (d.first t).headD noToken

theorem ev_first (hc : Checkable h F T) {t : Trees.Tree} (ht : t ∈ parts T) :
    (docOf h T).first t = [firstOf (docOf h T) t] ∧ Ev (fun f => firstTok h f t.id) (firstOf (docOf h T) t) := by
  obtain ⟨N, hN⟩ := firstToken_spec hc.rep t (parts_of T hc.whole t ht)
  have hne := hc.full t ht
  have e : t.tokens (docOf h T).node = t.tokens (kinds h) := rfl
  cases hl : t.tokens (kinds h) with
  | nil => exact absurd hl hne
  | cons x l =>
    have h1 : (docOf h T).first t = [(docOf h T).tok x] := by
      unfold Doc.first; rw [e, hl]; rfl
    have h2 : firstOf (docOf h T) t = (docOf h T).tok x := by unfold firstOf; rw [h1]; rfl
    refine ⟨by rw [h2, h1], N, fun f hf => ?_⟩
    have h3 := hN f hf
    rw [hl] at h3
    have hx : x ∈ t.elements.filter fun y => !kinds h y := by
      rw [← tokens_eq_filter hc.rep t (parts_of T hc.whole t ht), hl]; simp
    rw [List.mem_filter] at hx
    have hxT : x ∈ T.elements := by
      rw [← parts_elements] at hx ⊢
      obtain ⟨s, hs, hid⟩ := List.mem_map.mp hx.1
      exact List.mem_map.mpr ⟨s, parts_trans T t ht s hs, hid⟩
    unfold firstTok
    dsimp only
    rw [h3, h2]
    exact neighbour_tok hc (List.mem_filter.mpr ⟨hxT, hx.2⟩)

/-! Columns -/

theorem ev_nameLoop (hc : Checkable h F T) {t : Trees.Tree} (ht : t ∈ parts T) : ∀ (B A : List Trees.Tree), t.kids = A ++ B →
    (∃ k ∈ B, (h k.id).typeName = "name") →
    Ev (fun f => nameLoop h f (B.head?.map Trees.Tree.id)) (((B.find? fun k => (docOf h T).name k.id = "name").toList).map Trees.Tree.id)
  | [], _, _, hk => by obtain ⟨k, hk, -⟩ := hk; cases hk
  | k :: B, A, e, hk => by
    by_cases c : (h k.id).typeName = "name"
    · refine ⟨1, fun f hf => ?_⟩
      obtain ⟨f, rfl⟩ : ∃ f', f = f' + 1 := ⟨f - 1, by omega⟩
      have c' : (docOf h T).name k.id = "name" := c
      simp [nameLoop, c, nameNt, List.find?_cons, c']
    · obtain ⟨k', hk', hn⟩ := hk
      have hk'' : k' ∈ B := by
        rcases List.mem_cons.mp hk' with rfl | hh
        · exact absurd hn c
        · exact hh
      obtain ⟨N, hN⟩ := ev_nameLoop hc ht B (A ++ [k]) (by rw [e]; simp) ⟨k', hk'', hn⟩
      refine ⟨N + 1, fun f hf => ?_⟩
      obtain ⟨f, rfl⟩ : ∃ f', f = f' + 1 := ⟨f - 1, by omega⟩
      have c' : ¬ (docOf h T).name k.id = "name" := c
      have l3 := (kid_links hc ht e).2.2.1
      have h1 := hN f (by omega)
      dsimp only at h1 ⊢
      rw [List.head?_cons, Option.map_some, nameLoop, if_pos (by simpa [nameNt] using c), l3, h1, List.find?_cons, decide_eq_false c']

theorem ev_nameOf (hc : Checkable h F T) {t : Trees.Tree} (ht : t ∈ parts T) (hn : (h t.id).typeName = "var-def") :
    Ev (fun f => nameOf h f t.id) (((t.kids.find? fun k => (docOf h T).name k.id = "name").toList).map Trees.Tree.id) := by
  obtain ⟨h1, h2⟩ := hc.vars t ht hn
  obtain ⟨N, hN⟩ := ev_nameLoop hc ht t.kids [] rfl h2
  refine ⟨N, fun f hf => ?_⟩
  have h3 := hN f hf
  dsimp only at h3 ⊢
  rw [nameOf, if_pos h1, hc.rep.first _ h1, kids_ids (parts_of T hc.whole t ht), List.head?_map, h3]

theorem ev_column (hc : Checkable h F T) (col : Int) (rs : Reports) : ∀ (ts : List Trees.Tree), (∀ t ∈ ts, t ∈ parts T) →
    Ev (fun f => columnLoop h f col (ts.map Trees.Tree.id) rs)
      (addAll rs ((((ts.map (firstOf (docOf h T))).find? fun t' => t'.pos.lineCol.2 ≠ col).toList).map fun t' =>
        about t' "inconsistent struct field align"))
  | [], _ => ev_done rs
  | t :: ts, hts => by
    rw [List.map_cons]
    refine ev_bind (ev_first hc (hts t (by simp))).2 ?_
    by_cases c : (firstOf (docOf h T) t).pos.lineCol.2 ≠ col
    · refine ⟨0, fun _ _ => ?_⟩
      rw [List.map_cons, List.find?_cons, decide_eq_true c]
      simp only [if_pos c]
      rfl
    · obtain ⟨N, hN⟩ := ev_column hc col rs ts fun t ht => hts t (by simp [ht])
      refine ⟨N, fun f hf => ?_⟩
      have := hN f hf
      dsimp only at this ⊢
      rw [if_neg c, this, List.map_cons, List.find?_cons, decide_eq_false c]

theorem first_flat (hc : Checkable h F T) : ∀ (ts : List Trees.Tree), (∀ t ∈ ts, t ∈ parts T) →
    ts.flatMap (docOf h T).first = ts.map (firstOf (docOf h T))
  | [], _ => rfl
  | t :: ts, hts => by
    rw [List.flatMap_cons, List.map_cons, (ev_first hc (hts t (by simp))).1, first_flat hc ts fun t ht => hts t (by simp [ht])]
    rfl

theorem ev_columns (hc : Checkable h F T) (rs : Reports) :
    Ev (fun f => reportInconsistentStructAlign h f T.id rs) (addAll rs (docOf h T).columns) := by
  refine ev_bind (ev_apply1 (n := T.id) (e1 := fun f n => searchLoop h (isA h ["struct-type"]) 0 f (newWalker (some n) false) 0 [])
    (ev_deep hc ["struct-type"])) ?_
  refine ev_forParts hc _ (fun t ht => (namedParts_mem ht).1) rs ?_
  intro s hs rs
  have hsp := (namedParts_mem hs).1
  let nts := (topParts (fun x => decide ((docOf h T).name x ∈ ["var-def"])) s).flatMap fun v =>
    (v.kids.find? fun k => (docOf h T).name k.id = "name").toList
  have hnts : ∀ t ∈ nts, t ∈ parts T := by
    intro t ht
    obtain ⟨v, hv, hk⟩ := List.mem_flatMap.mp ht
    have := List.mem_of_find?_eq_some (Option.mem_toList.mp hk)
    exact parts_trans T v (top_mem hsp hv).1 t (kids_parts this)
  have hsel := ev_selectParts hc (n := s.id) (e1 := fun f n => searchLoop h (isA h ["var-def"]) 2 f (newWalker (some n) false) 0 [])
    (e2 := fun f => nameOf h f) (fun t ht => (top_mem hsp ht).1) (ev_top hc ["var-def"] hsp)
    (fun t ht => ev_nameOf hc (top_mem hsp ht).1 (by simpa using (top_mem hsp ht).2))
  rw [← List.map_flatMap] at hsel
  have hnames : (docOf h T).fieldNames s = nts.map (firstOf (docOf h T)) := by
    unfold Doc.fieldNames
    rw [← first_flat hc nts hnts, ← top_one, List.flatMap_assoc]
  refine ev_bind hsel ?_
  rw [hnames]
  change Ev (fun f => match nts.map Trees.Tree.id with
    | [] => .done rs
    | n :: ns => bindRun (firstTok h f n) fun t => columnLoop h f t.pos.lineCol.2 ns rs) _
  cases hn : nts with
  | nil => exact ev_done rs
  | cons t ts =>
    rw [hn] at hnts
    refine ev_bind (ev_first hc (hnts t (by simp))).2 ?_
    exact ev_column hc _ rs ts fun t ht => hnts t (by simp [ht])

/-! Structures -/

theorem ev_literals (hc : Checkable h F T) (rs : Reports) : Ev (fun f => reportLiteralStructs h f T.id rs) (addAll rs (docOf h T).literals) := by
  have hsel := ev_selectParts hc (n := T.id) (e1 := fun f n => searchLoop h (isA h ["var-def"]) 0 f (newWalker (some n) false) 0 [])
    (e2 := fun f n => searchLoop h (isA h ["struct-type"]) 2 f (newWalker (some n) false) 0 []) (fun t ht => (namedParts_mem ht).1)
    (ev_deep hc ["var-def"]) (fun t ht => ev_top hc ["struct-type"] (namedParts_mem ht).1)
  rw [← List.map_flatMap] at hsel
  refine ev_bind hsel ?_
  have hp : ∀ t ∈ ((docOf h T).namedParts ["var-def"]).flatMap fun v => topParts (fun x => decide ((docOf h T).name x ∈ ["struct-type"])) v,
      t ∈ parts T := by
    intro t ht
    obtain ⟨v, hv, hk⟩ := List.mem_flatMap.mp ht
    exact (top_mem (namedParts_mem hv).1 hk).1
  have := ev_forParts hc (f := fun f n rs => bindRun (firstTok h f n) fun t => .done (rs.reportToken t (errLiteral, [])))
    (g := fun s => ((docOf h T).first s).map fun t => about t "literal struct types are not allowed, use typedef") _ hp rs (by
      intro t ht rs
      rw [(ev_first hc (hp t ht)).1]
      exact ev_bind (ev_first hc (hp t ht)).2 (ev_done _))
  unfold Doc.literals
  rw [List.flatMap_assoc] at this
  simp only [← top_one]
  exact this

/-! Indents -/

theorem before_step (hc : Checkable h F T) {x y : Nat} {l : List Nat} (hx : x ∈ T.elements) (e : (docOf h T).before x = l ++ [y]) :
    y ∈ T.elements ∧ (docOf h T).before y = l := by
  have hnd := nodup_elements hc.rep T hc.whole
  obtain ⟨pre, rest, hs⟩ := List.append_of_mem hx
  have h1 := (takeWhile_at hnd hs).1
  unfold Doc.before at e
  rw [show (docOf h T).root = T from rfl, h1] at e
  obtain ⟨l1, l2, hp, e1, e2⟩ := List.filter_eq_append_iff.mp e
  obtain ⟨m1, m2, hp2, e3, e4, e5⟩ := List.filter_eq_cons_iff.mp e2
  have hs2 : T.elements = (l1 ++ m1) ++ y :: (m2 ++ x :: rest) := by rw [hs, hp, hp2]; simp
  refine ⟨by rw [hs2]; simp, ?_⟩
  unfold Doc.before
  rw [show (docOf h T).root = T from rfl, (takeWhile_at hnd hs2).1, List.filter_append, e1, List.filter_eq_nil_iff.mpr e3]
  simp

/-- Nothing before in the line. -/
def startsAfter (d : Doc) (p : Option Nat) : Bool :=
  match p with
  | none => true
  | some y => d.name y = "indent"

theorem ev_lineStart (hc : Checkable h F T) : ∀ (n : Nat) (l : List Nat), l.length = n → ∀ x ∈ T.elements, (docOf h T).before x = l →
    ∃ N, ∀ f0 f, N ≤ f0 → N ≤ f → ∀ first, lineStart h f0 f l.getLast? first =
      .done (l.reverse.find? (fun y => (docOf h T).name y = "indent"), first && startsAfter (docOf h T) l.getLast?) := by
  intro n
  induction n with
  | zero =>
    intro l hl x _ _
    obtain rfl := List.length_eq_zero_iff.mp hl
    refine ⟨1, fun f0 f _ hf first => ?_⟩
    obtain ⟨f, rfl⟩ : ∃ f', f = f' + 1 := ⟨f - 1, by omega⟩
    simp [lineStart, startsAfter]
  | succ n ih =>
    intro l hl x hx e
    rcases List.eq_nil_or_concat l with rfl | ⟨l, y, rfl⟩
    · cases hl
    rw [List.concat_eq_append] at hl e ⊢
    obtain ⟨hy, hb⟩ := before_step hc hx e
    obtain ⟨N, hN⟩ := ih l (by simpa using hl) y hy hb
    obtain ⟨M, hM⟩ := prev_eq hc hy
    refine ⟨N + M + 1, fun f0 f hf0 hf first => ?_⟩
    obtain ⟨f, rfl⟩ : ∃ f', f = f' + 1 := ⟨f - 1, by omega⟩
    have h1 := hM f0 (by omega)
    rw [hb] at h1
    dsimp only at h1
    rw [List.getLast?_concat, List.reverse_append, List.reverse_singleton, List.singleton_append, lineStart]
    by_cases c : (h y).typeName = "indent"
    · have c' : (docOf h T).name y = "indent" := c
      simp [c, indentType, startsAfter, c']
    · have c' : ¬ (docOf h T).name y = "indent" := c
      simp only [indentType, ne_eq, c, not_false_eq_true, if_true, h1, bindRun, hN f0 f (by omega) (by omega)]
      simp [startsAfter, c']

theorem width_eq : ∀ (l : List Nat) (n : Nat),
    l.foldl (fun size c => if c = 10 then size else if c = 9 then (size + 7) / 8 * 8 + 1 else size + 1) n = Doc.width n l
  | [], n => rfl
  | c :: l, n => by
    rw [List.foldl_cons, Doc.width, width_eq l]
    split
    · rfl
    · split
      · rw [Nat.mul_comm]
      · rfl

theorem ev_block (hc : Checkable h F T) {x : Nat} (hx : x ∈ T.elements) :
    Ev (fun f => blockIndentSize h f x) ((docOf h T).lineIndent x, (docOf h T).starts x) := by
  obtain ⟨N, hN⟩ := ev_lineStart hc _ _ rfl x hx rfl
  obtain ⟨M, hM⟩ := prev_eq hc hx
  refine ⟨N + M, fun f hf => ?_⟩
  have h1 := hM f (by omega)
  have h2 := hN f f (by omega) (by omega) true
  dsimp only at h1
  unfold blockIndentSize
  dsimp only
  rw [h1]
  simp only [bindRun, h2, Bool.true_and]
  have e1 : startsAfter (docOf h T) ((docOf h T).before x).getLast? = (docOf h T).starts x := rfl
  rw [e1]
  unfold Doc.lineIndent
  cases hf : ((docOf h T).before x).reverse.find? (fun y => (docOf h T).name y = "indent") with
  | none => rfl
  | some y =>
    have hy : y ∈ (docOf h T).before x := by simpa using List.mem_of_find?_eq_some hf
    simp only [neighbour_tok hc (before_mem hy), bindRun]
    rw [indentWidth, width_eq]

/-- What is reported about definitions. -/
def itemLines (d : Doc) (expected : Nat) (items : List Trees.Tree) : List Line :=
  (((items.takeWhile fun t => !d.starts t.id || d.lineIndent t.id == expected).filter fun t => !d.starts t.id).flatMap fun t =>
    (d.first t).map fun k => about k "must be on a separate line") ++
  ((items.dropWhile fun t => !d.starts t.id || d.lineIndent t.id == expected).head?.toList).flatMap fun t =>
    (d.first t).map fun k => about k "incorrect indent"

theorem ev_items (hc : Checkable h F T) (expected : Nat) : ∀ (ts : List Trees.Tree) (rs : Reports), (∀ t ∈ ts, t ∈ parts T) →
    Ev (fun f => itemLoop h f expected (ts.map Trees.Tree.id) rs) (addAll rs (itemLines (docOf h T) expected ts))
  | [], rs, _ => ev_done rs
  | t :: ts, rs, hts => by
    have ht := hts t (by simp)
    obtain ⟨f1, f2⟩ := ev_first hc ht
    refine ev_bind (ev_block hc (part_element ht)) ?_
    cases c1 : (docOf h T).starts t.id with
    | false =>
      have e : itemLines (docOf h T) expected (t :: ts) = about (firstOf (docOf h T) t) "must be on a separate line" ::
          itemLines (docOf h T) expected ts := by
        simp [itemLines, List.takeWhile_cons, List.dropWhile_cons, c1, List.filter_cons, f1]
      rw [e]
      exact ev_bind f2 (ev_items hc expected ts _ fun t ht => hts t (by simp [ht]))
    | true =>
      by_cases c2 : (docOf h T).lineIndent t.id = expected
      · have e : itemLines (docOf h T) expected (t :: ts) = itemLines (docOf h T) expected ts := by
          simp [itemLines, List.takeWhile_cons, List.dropWhile_cons, c1, c2, List.filter_cons]
        rw [e]
        simp only [c2, not_true_eq_false, if_false, ne_eq]
        exact ev_items hc expected ts rs fun t ht => hts t (by simp [ht])
      · have e : itemLines (docOf h T) expected (t :: ts) = [about (firstOf (docOf h T) t) "incorrect indent"] := by
          simp [itemLines, List.takeWhile_cons, List.dropWhile_cons, c1, c2, f1]
        rw [e]
        simp only [c2, not_true_eq_false, if_false, ne_eq, not_false_eq_true, if_true]
        exact ev_bind f2 (ev_done _)

theorem ev_indents (hc : Checkable h F T) (rs : Reports) : Ev (fun f => reportIncorrectIndents h f T.id rs) (addAll rs (docOf h T).indents) := by
  refine ev_bind (ev_apply1 (n := T.id) (e1 := fun f n => searchLoop h (isA h ["cDataGrammar", "struct-type"]) 0 f (newWalker (some n) false) 0 [])
    (ev_deep hc ["cDataGrammar", "struct-type"])) ?_
  refine ev_forParts hc _ (fun t ht => (namedParts_mem ht).1) rs ?_
  intro c hcp rs
  have hp := (namedParts_mem hcp).1
  have h1 : Ev (fun f => if (h c.id).typeName ≠ rootNt then bindRun (blockIndentSize h f c.id) fun r => .done (r.1 + 4) else .done 0)
      (if (docOf h T).name c.id = "cDataGrammar" then 0 else (docOf h T).lineIndent c.id + 4) := by
    by_cases e : (h c.id).typeName = "cDataGrammar"
    · have e' : (docOf h T).name c.id = "cDataGrammar" := e
      simp only [rootNt, e, e', ne_eq, not_true_eq_false, if_false, if_true]
      exact ev_done 0
    · have e' : ¬ (docOf h T).name c.id = "cDataGrammar" := e
      simp only [rootNt, e, e', ne_eq, not_false_eq_true, if_false, if_true]
      exact ev_bind (ev_block hc (part_element hp)) (ev_done _)
  refine ev_bind h1 ?_
  refine ev_bind (ev_apply1 (n := c.id) (e1 := fun f n => searchLoop h (isA h ["var-def", "type-def"]) 2 f (newWalker (some n) false) 0 [])
    (ev_top hc ["var-def", "type-def"] hp)) ?_
  exact ev_items hc _ _ rs fun t ht => (top_mem hp ht).1

/-! The whole check -/

theorem ev_inspect (hc : Checkable h F T) : Ev (fun f => inspectCode h f T.id) (addAll newReports (docOf h T).wrong) := by
  unfold Doc.wrong
  simp only [addAll_append]
  have := ev_bind (ev_bind (ev_bind (ev_bind (ev_bind (ev_bind (ev_bind (ev_final hc newReports) (ev_oneSpace hc _)) (ev_opSpaces hc _))
    (ev_columns hc _)) (ev_literals hc _)) (ev_indents hc _)) (ev_trailing hc _)) (ev_tabs hc _)
  exact this

end Verif.Proof.Style
