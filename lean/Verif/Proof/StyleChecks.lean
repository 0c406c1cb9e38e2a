/-
The style checker: what every check reports.
-/
import Verif.Proof.Style

namespace Verif.Proof.Style

open Verif.Model Verif.Model.Tree Verif.Model.Style Verif.Spec Verif.Spec.Trees Verif.Spec.Select Verif.Spec.Style

/-- No token. -/
def noToken : Token := { type := -1, typeName := "", content := [], pos := ⟨none, 0⟩ }

/-- The tree of elements with labels. -/
def docOf (h : Heap) (T : Trees.Tree) : Doc := ⟨T, fun x => (h x).isNode, fun x => (h x).typeName, fun x => ((h x).token).getD noToken⟩

/-- The tree can be checked: it is a whole tree; leaves have tokens; there are no nodes without tokens; spaces, newlines and operators are
leaves; every definition of variables has a name. -/
structure Checkable (h : Heap) (F : Forest) (T : Trees.Tree) : Prop where
  rep : Rep h F
  whole : T.Of F
  top : ∀ n, T.id ∉ F n
  root : (h T.id).isNode = true
  leaf : ∀ x ∈ T.elements, (h x).isNode = false → ∃ t, (h x).token = some t ∧ t.typeName = (h x).typeName
  full : ∀ t ∈ parts T, t.tokens (kinds h) ≠ []
  small : ∀ x ∈ T.elements, (h x).typeName ∈ ["indent", "space", "op"] → (h x).isNode = false
  vars : ∀ t ∈ parts T, (h t.id).typeName = "var-def" → (h t.id).isNode = true ∧ ∃ k ∈ t.kids, (h k.id).typeName = "name"

variable {h : Heap} {F : Forest} {T : Trees.Tree}

theorem takeWhile_at {l pre rest : List Nat} {x : Nat} (hn : l.Nodup) (e : l = pre ++ x :: rest) :
    l.takeWhile (· ≠ x) = pre ∧ l.dropWhile (· ≠ x) = x :: rest := by
  subst e
  have hx : ∀ y ∈ pre, y ≠ x := by
    intro y hy hc
    subst hc
    rw [List.nodup_append] at hn
    exact hn.2.2 _ hy _ (by simp) rfl
  constructor
  · rw [List.takeWhile_append_of_pos (by simpa using hx)]
    simp
  · rw [List.dropWhile_append_of_pos (by simpa using hx)]
    simp

theorem part_of_element (hc : Checkable h F T) {x : Nat} (hx : x ∈ T.elements) : ∃ t ∈ parts T, t.id = x ∧ t.Of F := by
  rw [← parts_elements] at hx
  obtain ⟨t, h1, h2⟩ := List.mem_map.mp hx
  exact ⟨t, h1, h2, parts_of T hc.whole t h1⟩

theorem part_element {t : Trees.Tree} (ht : t ∈ parts T) : t.id ∈ T.elements := by
  rw [← parts_elements]; exact List.mem_map_of_mem ht

theorem of_full (hc : Checkable h F T) {t : Trees.Tree} (ht : t.Of F) (hx : t.id ∈ T.elements) : t.tokens (kinds h) ≠ [] := by
  obtain ⟨t', h1, h2, h3⟩ := part_of_element hc hx
  rw [tree_unique t t' ht h3 h2.symm]
  exact hc.full t' h1

theorem next_eq (hc : Checkable h F T) {x : Nat} (hx : x ∈ T.elements) (hn : (h x).isNode = false) :
    Ev (fun f => Tree.nextToken h f (some x)) ((docOf h T).after x).head? := by
  obtain ⟨tx, -, h2, h3, pre, post, -, -, h4, -, -⟩ := split_tree hc.rep T hc.whole x hx
  have hk : tx.elements = [x] := by
    cases tx with
    | node id kids =>
      simp only [Trees.Tree.id] at h3
      subst h3
      simp only [Trees.Tree.Of] at h2
      have := hc.rep.token id hn
      rw [h2.1] at this
      rw [List.map_eq_nil_iff] at this
      subst this
      rfl
  have ha : (docOf h T).after x = post.filter fun y => !kinds h y := by
    have := (takeWhile_at (nodup_elements hc.rep T hc.whole) (x := x) (pre := pre) (rest := post) (by rw [h4, hk]; simp)).2
    unfold Doc.after
    rw [show (docOf h T).root = T from rfl, this]
    rfl
  rw [ha]
  rcases Tree.nextToken_spec hc.rep hc.whole hc.top h2 h4 with ⟨hp, N, hN⟩ | ⟨ty, rest, h5, h6, N, hN⟩
  · subst hp
    exact ⟨N, fun f hf => by rw [← h3]; exact hN f hf⟩
  · refine ⟨N, fun f hf => ?_⟩
    dsimp only
    rw [← h3, hN f hf, h6, List.filter_append, ← tokens_eq_filter hc.rep ty h5]
    have := of_full hc h5 (by rw [h4, h6]; cases ty; simp [Trees.Tree.elements, Trees.Tree.id])
    cases ht : ty.tokens (kinds h) with
    | nil => exact absurd ht this
    | cons y l => simp

theorem mem_mirror (hT : T.Of F) {y : Nat} (hy : y ∈ T.mirror.elements) : y ∈ T.elements := by
  rw [Tree.mem_elements T.mirror (mirror_of T hT), mirror_id] at hy
  rw [Tree.mem_elements T hT]
  exact Relation.ReflTransGen.mono (p := fun a b => b ∈ F a) (fun a b hab => by simpa [revF] using hab) _ _ hy

theorem prev_eq (hc : Checkable h F T) {x : Nat} (hx : x ∈ T.elements) :
    Ev (fun f => prevToken h f (some x)) ((docOf h T).before x).getLast? := by
  obtain ⟨tx, -, h2, h3, pre, post, pre', post', h4, h5, h6⟩ := split_tree hc.rep T hc.whole x hx
  have hb : (docOf h T).before x = pre.filter fun y => !kinds h y := by
    have : tx.elements = x :: elementsOf tx.kids := by cases tx; subst h3; rfl
    have := (takeWhile_at (nodup_elements hc.rep T hc.whole) (x := x) (pre := pre) (rest := elementsOf tx.kids ++ post)
      (by rw [h4, this]; simp)).1
    unfold Doc.before
    rw [show (docOf h T).root = T from rfl, this]
    rfl
  rw [hb, ← List.head?_reverse, ← h6]
  rcases Tree.nextToken_spec (rep_mirror hc.rep) (mirror_of T hc.whole) (by intro n; simpa [revF, mirror_id] using hc.top n)
    (mirror_of tx h2) h5 with ⟨hp, N, hN⟩ | ⟨ty, rest, h7, h8, N, hN⟩
  · subst hp
    refine ⟨N, fun f hf => ?_⟩
    have := hN f hf
    rw [mirror_id, h3] at this
    dsimp only
    rw [prevToken_mirror, this]
    rfl
  · refine ⟨N, fun f hf => ?_⟩
    have := hN f hf
    rw [mirror_id, h3] at this
    dsimp only
    rw [prevToken_mirror, this, h8, List.filter_append]
    have hk : kinds (flipHeap h) = kinds h := rfl
    rw [hk]
    have e1 : ty.elements.filter (fun y => !kinds h y) = ty.tokens (kinds h) := by
      rw [← hk]; exact (tokens_eq_filter (rep_mirror hc.rep) ty h7).symm
    rw [e1]
    obtain ⟨t, ht, hid⟩ := exists_tree hc.rep.down ty.id
    have hty : ty = t.mirror := tree_unique ty t.mirror h7 (mirror_of t ht) (by rw [mirror_id, hid])
    have hne : ty.tokens (kinds h) ≠ [] := by
      rw [hty, tokens_mirror]
      have := of_full hc ht (by
        rw [hid]
        refine mem_mirror hc.whole ?_
        rw [h5, h8]; cases ty; simp [Trees.Tree.elements, Trees.Tree.id])
      simpa using this
    cases ht : ty.tokens (kinds h) with
    | nil => exact absurd ht hne
    | cons y l => simp

/-! Selection -/

theorem bind_assoc {α β γ : Type} (x : Run α) (f : α → Run β) (g : β → Run γ) :
    bindRun (bindRun x f) g = bindRun x fun a => bindRun (f a) g := by
  cases x <;> rfl

theorem ev_apply1 {e1 : Nat → Extractor} {n : Nat} {L : List Nat} (h1 : Ev (fun f => e1 f n) L) :
    Ev (fun f => Selector.apply ⟨[e1 f], false⟩ [some n]) L := by
  obtain ⟨N, hN⟩ := h1
  refine ⟨N, fun f hf => ?_⟩
  have := hN f hf
  dsimp only at this
  simp [Selector.apply, Selector.turn, selectOne, selectNodes, bindRun, this]

theorem ev_fold_flat {one : Nat → Nat → Run (List Nat)} {g : Nat → List Nat} : ∀ (l : List Nat) (acc : List Nat),
    (∀ m ∈ l, Ev (fun f => one f m) (g m)) →
    Ev (fun f => l.foldl (fun res n => bindRun res fun res => bindRun (one f n) fun l => .done (res ++ l)) (.done acc)) (acc ++ l.flatMap g)
  | [], acc, _ => by simpa using ev_done acc
  | m :: l, acc, hl => by
    obtain ⟨N, hN⟩ := hl m (by simp)
    obtain ⟨M, hM⟩ := ev_fold_flat l (acc ++ g m) fun m hm => hl m (by simp [hm])
    refine ⟨N + M, fun f hf => ?_⟩
    have h1 := hN f (by omega)
    have h2 := hM f (by omega)
    dsimp only at h1 h2 ⊢
    rw [List.foldl_cons]
    simp only [bindRun] at h2 ⊢
    rw [h1]
    simp only
    rw [h2]
    simp

theorem ev_apply2 {e1 e2 : Nat → Extractor} {n : Nat} {L : List Nat} {g : Nat → List Nat} (h1 : Ev (fun f => e1 f n) L)
    (h2 : ∀ m ∈ L, Ev (fun f => e2 f m) (g m)) : Ev (fun f => Selector.apply ⟨[e1 f, e2 f], false⟩ [some n]) (L.flatMap g) := by
  obtain ⟨N, hN⟩ := h1
  obtain ⟨M, hM⟩ := ev_fold_flat (one := e2) L [] h2
  refine ⟨N + M, fun f hf => ?_⟩
  have a1 := hN f (by omega)
  have a2 := hM f (by omega)
  dsimp only at a1 a2
  rw [List.nil_append] at a2
  simp only [Selector.apply, Selector.turn, selectOne, selectNodes, bindRun, List.foldl_cons, List.foldl_nil, a1, List.nil_append]
  simp only [bindRun] at a2
  rw [a2]
  rfl

theorem ev_apply3 {e1 e2 e3 : Nat → Extractor} {n : Nat} {L : List Nat} {g g' : Nat → List Nat} (h1 : Ev (fun f => e1 f n) L)
    (h2 : ∀ m ∈ L, Ev (fun f => e2 f m) (g m)) (h3 : ∀ m ∈ L, ∀ k ∈ g m, Ev (fun f => e3 f k) (g' k)) :
    Ev (fun f => Selector.apply ⟨[e1 f, e2 f, e3 f], false⟩ [some n]) ((L.flatMap g).flatMap g') := by
  obtain ⟨N, hN⟩ := h1
  have h4 : ∀ m ∈ L, Ev (fun f => bindRun (e2 f m) (selectNodes (e3 f) [])) ((g m).flatMap g') := by
    intro m hm
    refine ev_bind (h2 m hm) ?_
    have := ev_fold_flat (one := e3) (g m) [] (h3 m hm)
    rw [List.nil_append] at this
    exact this
  obtain ⟨M, hM⟩ := ev_fold_flat (one := fun f m => bindRun (e2 f m) (selectNodes (e3 f) [])) L [] h4
  refine ⟨N + M, fun f hf => ?_⟩
  have a1 := hN f (by omega)
  have a2 := hM f (by omega)
  dsimp only at a1 a2
  rw [List.nil_append] at a2
  simp only [bind_assoc] at a2
  have a3 : selectNodes (e2 f) [e3 f] L = .done (L.flatMap fun a => (g a).flatMap g') := a2
  simp only [Selector.apply, Selector.turn, selectOne, List.foldl_cons, List.foldl_nil]
  have a4 : selectNodes (e1 f) [e2 f, e3 f] [n] = .done (L.flatMap fun a => (g a).flatMap g') := by
    rw [selectNodes]
    simp only [List.foldl_cons, List.foldl_nil, bindRun, a1, a3]
    simp
  rw [a4]
  simp [bindRun, List.flatMap_assoc]

/-- The extractor of a search. -/
theorem ev_search (hc : Checkable h F T) (nf : Nat → Bool) (deep : Bool) {t : Trees.Tree} (ht : t ∈ parts T) :
    Ev (fun f => searchLoop h nf (if deep then 0 else 2) f (newWalker (some t.id) false) 0 [])
      (if deep then t.elements.filter nf else topmost nf t) :=
  search_spec hc.rep nf deep t (parts_of T hc.whole t ht)

theorem root_part : T ∈ parts T := by cases T; simp [parts]

theorem isA_eq (names : List String) : (fun n => isA h names n) = fun n => decide ((h n).typeName ∈ names) := by
  have key : ∀ names tn, isA.go tn names = decide (tn ∈ names) := by
    intro names tn
    induction names with
    | nil => rfl
    | cons a names ih =>
      simp only [isA.go, ih]
      by_cases h : tn = a
      · simp [h]
      · simp [h]
  funext n
  exact key names _

/-- Searching for leaves. -/
theorem ev_leaves (hc : Checkable h F T) (names : List String) (hn : ∀ s ∈ names, s ∈ ["indent", "space", "op"]) :
    Ev (fun f => searchLoop h (isA h names) 2 f (newWalker (some T.id) false) 0 []) ((docOf h T).named names) := by
  have := ev_search hc (isA h names) false root_part
  simp only [Bool.false_eq_true, if_false] at this
  rw [topmost_leaves] at this
  · have e : isA h names = fun n => decide ((h n).typeName ∈ names) := isA_eq names
    have e2 : T.elements.filter (isA h names) = (docOf h T).named names := by rw [e]; rfl
    rw [← e2]
    exact this
  · intro t ht hf
    have h1 : decide ((h t.id).typeName ∈ names) = true := by rw [← hf]; exact (congrFun (isA_eq names) t.id).symm
    have h2 := hc.small t.id (part_element ht) (hn _ (by simpa using h1))
    have h3 := parts_of T hc.whole t ht
    cases t with
    | node id kids =>
      simp only [Trees.Tree.Of] at h3
      have := hc.rep.token id h2
      rw [h3.1] at this
      exact List.map_eq_nil_iff.mp this

theorem named_leaf (hc : Checkable h F T) {names : List String} (hn : ∀ s ∈ names, s ∈ ["indent", "space", "op"]) {x : Nat}
    (hx : x ∈ (docOf h T).named names) : x ∈ T.elements ∧ (h x).isNode = false ∧ tokenOf h (some x) = .done ((docOf h T).tok x) ∧
      (h x).typeName ∈ names ∧ (h x).token = some ((docOf h T).tok x) := by
  unfold Doc.named at hx
  rw [List.mem_filter] at hx
  obtain ⟨h1, h2⟩ := hx
  have h2' : (h x).typeName ∈ names := of_decide_eq_true h2
  have h3 := hc.small x h1 (hn _ h2')
  obtain ⟨t, h4, -⟩ := hc.leaf x h1 h3
  exact ⟨h1, h3, by simp [tokenOf, h4, docOf], h2', by simp [h4, docOf]⟩

theorem flatMap_if {α : Type} (p : α → Bool) (l : List α) : l.flatMap (fun x => if p x = true then [x] else []) = l.filter p := by
  induction l with
  | nil => rfl
  | cons x l ih =>
    rw [List.flatMap_cons, ih, List.filter_cons]
    split <;> simp

theorem ev_forEach {f : Nat → Nat → Reports → Run Reports} {g : Nat → List Line} : ∀ (l : List Nat) (rs : Reports),
    (∀ m ∈ l, ∀ rs, Ev (fun fuel => f fuel m rs) (addAll rs (g m))) → Ev (fun fuel => forEach (f fuel) l rs) (addAll rs (l.flatMap g))
  | [], rs, _ => ev_done rs
  | m :: l, rs, hl => by
    rw [List.flatMap_cons, addAll_append]
    exact ev_bind (hl m (by simp) rs) (ev_forEach l _ fun m hm => hl m (by simp [hm]))

/-- Reports about leaves. -/
theorem ev_reports {rep : Token → Reports → Reports} {line : Token → Line} (hr : ∀ t rs, rep t rs = addAll rs [line t]) (l : List Nat)
    (hl : ∀ x ∈ l, tokenOf h (some x) = .done ((docOf h T).tok x)) (rs : Reports) :
    Ev (fun _ => forEach (fun n rs => bindRun (tokenOf h (some n)) fun t => .done (rep t rs)) l rs)
      (addAll rs (l.map fun x => line ((docOf h T).tok x))) := by
  have e : (l.map fun x => line ((docOf h T).tok x)) = l.flatMap fun x => [line ((docOf h T).tok x)] := by
    rw [List.map_eq_flatMap]
  rw [e]
  refine ev_forEach l rs fun m hm rs => ⟨0, fun _ _ => ?_⟩
  simp only [hl m hm, bindRun, hr]

/-! Simple checks -/

theorem ev_tabs (hc : Checkable h F T) (rs : Reports) : Ev (fun f => reportTabs h f T.id rs) (addAll rs (docOf h T).tabs) := by
  have hn : ∀ s ∈ ["indent", "space"], s ∈ ["indent", "space", "op"] := by simp
  have h1 := ev_apply2 (n := T.id) (e1 := fun f n => searchLoop h (isA h ["indent", "space"]) 2 f (newWalker (some n) false) 0 [])
    (e2 := fun _ n => bindRun (bindRun (tokenOf h (some n)) fun t => .done (t.content.contains 9)) fun b =>
    .done (if b then [n] else [])) (g := fun n => if ((docOf h T).tok n).content.contains 9 = true then [n] else [])
    (ev_leaves hc ["indent", "space"] hn) (fun m hm => ⟨0, fun _ _ => by simp only [(named_leaf hc hn hm).2.2.1, bindRun]⟩)
  rw [flatMap_if] at h1
  refine ev_bind h1 ?_
  have := ev_reports (h := h) (T := T) (rep := fun t rs => rs.reportToken t (errTab, [])) (line := fun t => about t "no tabs allowed") (fun _ _ => rfl)
    (((docOf h T).named ["indent", "space"]).filter fun n => ((docOf h T).tok n).content.contains 9)
    (fun x hx => (named_leaf hc hn (List.mem_filter.mp hx).1).2.2.1) rs
  unfold Doc.tabs
  convert this using 6
  simp

theorem ev_final (hc : Checkable h F T) (rs : Reports) : Ev (fun f => reportNoFinalNl h f T.id rs) (addAll rs (docOf h T).finalNewline) := by
  have h1 : Ev (fun f => lastToken h f (some T.id)) (T.tokens (kinds h)).getLast? := by
    obtain ⟨M, hM⟩ := firstToken_spec (rep_mirror hc.rep) T.mirror (mirror_of T hc.whole)
    refine ⟨M, fun f hf => ?_⟩
    dsimp only
    rw [firstToken_mirror, ← mirror_id T, hM f hf, show kinds (flipHeap h) = kinds h from rfl, tokens_mirror]
    simp
  refine ev_bind h1 ?_
  cases hl : (T.tokens (kinds h)).getLast? with
  | none => exact absurd (List.getLast?_eq_none_iff.mp hl) (hc.full T root_part)
  | some x =>
    have hx := List.mem_of_getLast? hl
    rw [tokens_eq_filter hc.rep T hc.whole, List.mem_filter] at hx
    obtain ⟨t, h2, h3⟩ := hc.leaf x hx.1 (by simpa [kinds] using hx.2)
    have h4 : tokenOf h (some x) = .done t := by simp [tokenOf, h2]
    refine ⟨0, fun _ _ => ?_⟩
    have h5 : (docOf h T).finalNewline = if (h x).typeName = "indent" then [] else
        [(t.pos.lineCol.1, t.pos.lineCol.2 + t.content.length, "no newline at file end", [])] := by
      unfold Doc.finalNewline
      rw [show (docOf h T).root.tokens (docOf h T).node = T.tokens (kinds h) from rfl, hl]
      simp [docOf, h2]
    simp only [h4, bindRun, h5, h3, indentType, errNoEofNl]
    by_cases he : (h x).typeName = "indent"
    · simp [he, addAll]
    · simp only [he, ne_eq, not_false_eq_true, if_true, if_false]
      rfl

end Verif.Proof.Style
