/-
The style checker: checks of spaces.
-/
import Verif.Proof.StyleChecks

namespace Verif.Proof.Style

open Verif.Model Verif.Model.Tree Verif.Model.Style Verif.Spec Verif.Spec.Trees Verif.Spec.Select Verif.Spec.Style

variable {h : Heap} {F : Forest} {T : Trees.Tree}

/-! Parents and siblings -/

mutual
theorem has_parent : ∀ (T : Trees.Tree), ∀ x ∈ T.elements, x = T.id ∨ ∃ t ∈ parts T, ∃ k ∈ t.kids, k.id = x
  | .node id kids, x, hx => by
    simp only [Trees.Tree.elements, List.mem_cons] at hx
    rcases hx with rfl | hx
    · exact .inl rfl
    · right
      rcases have_parents kids x hx with ⟨k, hk, he⟩ | ⟨t, ht, hk⟩
      · exact ⟨.node id kids, by simp [parts], k, hk, he⟩
      · exact ⟨t, by simp [parts, ht], hk⟩
theorem have_parents : ∀ (ts : List Trees.Tree), ∀ x ∈ elementsOf ts, (∃ k ∈ ts, k.id = x) ∨ ∃ t ∈ partsOf ts, ∃ k ∈ t.kids, k.id = x
  | [], x, hx => by simp [elementsOf] at hx
  | t :: ts, x, hx => by
    simp only [elementsOf, List.mem_append] at hx
    rcases hx with hx | hx
    · rcases has_parent t x hx with rfl | ⟨s, hs, hk⟩
      · exact .inl ⟨t, by simp, rfl⟩
      · exact .inr ⟨s, by simp [partsOf, hs], hk⟩
    · rcases have_parents ts x hx with ⟨k, hk, he⟩ | ⟨s, hs, hk⟩
      · exact .inl ⟨k, by simp [hk], he⟩
      · exact .inr ⟨s, by simp [partsOf, hs], hk⟩
end

theorem kids_ids {t : Trees.Tree} (ht : t.Of F) : F t.id = t.kids.map Trees.Tree.id := by
  cases t; simp only [Trees.Tree.Of] at ht; exact ht.1

theorem kid_of {t k : Trees.Tree} (ht : t.Of F) (hk : k ∈ t.kids) : k.Of F := by
  cases t; simp only [Trees.Tree.Of] at ht; exact allOf_iff.mp ht.2 k hk

/-- A child, its neighbours and its parent. -/
theorem kid_links (hc : Checkable h F T) {t : Trees.Tree} (ht : t ∈ parts T) {A B : List Trees.Tree} {k : Trees.Tree}
    (e : t.kids = A ++ k :: B) : (h k.id).parent = some t.id ∧ (h k.id).prev = A.getLast?.map Trees.Tree.id ∧
      (h k.id).next = B.head?.map Trees.Tree.id ∧ (h t.id).isNode = true := by
  have hF := kids_ids (parts_of T hc.whole t ht)
  have hm : k.id ∈ F t.id := by rw [hF, e]; simp
  have := hc.rep.link t.id (A.map Trees.Tree.id) k.id (B.map Trees.Tree.id) (by rw [hF, e]; simp)
  refine ⟨(hc.rep.parent _ _).mpr hm, ?_, ?_, hc.rep.isNode hm⟩
  · rw [← List.getLast?_map]; exact this.1
  · rw [← List.head?_map]; exact this.2

/-! One space -/

theorem mem_gaps (d : Doc) (x : Nat) : ∀ (l : List Trees.Tree), x ∈ d.gaps l ↔
    ∃ A a k b B, l = A ++ a :: k :: b :: B ∧ k.id = x ∧ d.node a.id = true ∧ d.name a.id = "type" ∧ d.node b.id = true ∧ d.name b.id = "name"
  | [] => by simp [Doc.gaps]
  | [y] => by
    simp only [Doc.gaps, List.not_mem_nil, false_iff]
    rintro ⟨A, a, k, b, B, e, -⟩
    have := congrArg List.length e
    simp at this
    omega
  | [y, z] => by
    simp only [Doc.gaps, List.not_mem_nil, false_iff]
    rintro ⟨A, a, k, b, B, e, -⟩
    have := congrArg List.length e
    simp at this
    omega
  | a :: y :: b :: l => by
    rw [Doc.gaps, List.mem_append, mem_gaps d x (y :: b :: l)]
    constructor
    · rintro (h1 | ⟨A, a', k, b', B, e, h2⟩)
      · split at h1
        · rename_i hc
          exact ⟨[], a, y, b, l, rfl, (List.mem_singleton.mp h1).symm, hc⟩
        · cases h1
      · exact ⟨a :: A, a', k, b', B, by rw [e]; rfl, h2⟩
    · rintro ⟨A, a', k, b', B, e, h1, h2⟩
      cases A with
      | nil =>
        simp only [List.nil_append, List.cons.injEq] at e
        obtain ⟨rfl, rfl, rfl, rfl⟩ := e
        left
        rw [if_pos h2]
        simp [h1]
      | cons c A =>
        simp only [List.cons_append, List.cons.injEq] at e
        exact .inr ⟨A, a', k, b', B, e.2, h1, h2⟩

theorem mem_fields (d : Doc) (x : Nat) : x ∈ d.fields ↔
    ∃ s ∈ parts d.root, d.name s.id = "struct-type" ∧ ∃ v ∈ s.kids, d.name v.id = "var-def" ∧ x ∈ d.gaps v.kids := by
  simp [Doc.fields, Doc.namedParts, List.mem_flatMap, and_assoc]

theorem fieldAlign_iff (hc : Checkable h F T) {x : Nat} (hx : x ∈ T.elements) : isStructFieldAlign h x = true ↔ x ∈ (docOf h T).fields := by
  rw [mem_fields]
  constructor
  · intro ha
    unfold isStructFieldAlign at ha
    rcases has_parent T x hx with rfl | ⟨t, ht, k, hk, rfl⟩
    · cases hp : (h T.id).parent with
      | none => rw [hp] at ha; cases ha
      | some p => exact absurd ((hc.rep.parent _ _).mp hp) (hc.top p)
    · obtain ⟨A, B, e⟩ := List.append_of_mem hk
      obtain ⟨l1, l2, l3, l4⟩ := kid_links hc ht e
      rw [l1, l2, l3] at ha
      rcases List.eq_nil_or_concat A with rfl | ⟨A, a, rfl⟩
      · simp [alignLoop] at ha
      cases B with
      | nil => simp [alignLoop] at ha
      | cons b B =>
        have htx := part_element ht
        rcases has_parent T t.id htx with hr | ⟨s, hs, k', hk', hkid⟩
        · cases hp : (h t.id).parent with
          | none => simp [alignLoop, hp] at ha
          | some p => rw [hr] at hp; exact absurd ((hc.rep.parent _ _).mp hp) (hc.top p)
        · obtain rfl : k' = t := tree_unique k' t (kid_of (parts_of T hc.whole s hs) hk') (parts_of T hc.whole t ht) hkid
          obtain ⟨A', B', e'⟩ := List.append_of_mem hk'
          obtain ⟨m1, -, -, m4⟩ := kid_links hc hs e'
          simp [alignLoop, m1, m4, l4, typeNt, nameNt, varDefNt, structTypeNt] at ha
          refine ⟨s, hs, ha.2.2.2, k', hk', ha.2.2.1, ?_⟩
          rw [mem_gaps]
          refine ⟨A, a, k, b, B, ?_, rfl, ha.1.1, ha.1.2, ha.2.1.1, ha.2.1.2⟩
          rw [e]; simp
  · rintro ⟨s, hs, h1, v, hv, h2, hg⟩
    rw [mem_gaps] at hg
    obtain ⟨A, a, k, b, B, e, rfl, g1, g2, g3, g4⟩ := hg
    have hvp : v ∈ parts T := parts_trans T s hs v (kids_parts hv)
    obtain ⟨l1, l2, l3, l4⟩ := kid_links hc hvp (A := A ++ [a]) (k := k) (B := b :: B) (by rw [e]; simp)
    obtain ⟨A', B', e'⟩ := List.append_of_mem hv
    obtain ⟨m1, -, -, m4⟩ := kid_links hc hs e'
    simp only [docOf] at h1 h2 g1 g2 g3 g4
    simp [isStructFieldAlign, alignLoop, l1, l2, l3, l4, m1, m4, typeNt, nameNt, varDefNt, structTypeNt, h1, h2, g1, g2, g3, g4]

theorem literal_eq {x : Nat} (hn : (h x).isNode = false) (ht : (h x).token = some ((docOf h T).tok x)) (text : List Nat) :
    literalRun h text x = .done (decide (((docOf h T).tok x).content = text)) := by
  simp only [literalRun, isALiteral, hn, ht, Bool.false_eq_true, if_false, List.any_cons, List.any_nil, Bool.or_false]
  congr 1
  simp only [decide_eq_decide]
  exact eq_comm

theorem ev_oneSpace (hc : Checkable h F T) (rs : Reports) : Ev (fun f => reportMultipleSpaces h f T.id rs) (addAll rs (docOf h T).oneSpace) := by
  have hn : ∀ s ∈ ["space"], s ∈ ["indent", "space", "op"] := by simp
  have h1 := ev_apply2 (n := T.id) (e1 := fun f n => searchLoop h (isA h ["space"]) 2 f (newWalker (some n) false) 0 [])
    (e2 := fun _ n => bindRun (bindRun (literalRun h [32] n) fun b => .done !(if b then true else isStructFieldAlign h n)) fun b =>
    .done (if b then [n] else []))
    (g := fun n => if (decide (((docOf h T).tok n).content ≠ [32] ∧ n ∉ (docOf h T).fields)) = true then [n] else [])
    (ev_leaves hc ["space"] hn) (fun m hm => ⟨0, fun _ _ => by
      obtain ⟨a1, a2, a3, a4, a5⟩ := named_leaf hc hn hm
      simp only [literal_eq a2 a5, bindRun]
      have := fieldAlign_iff hc a1
      by_cases c1 : ((docOf h T).tok m).content = [32]
      · simp [c1]
      · by_cases c2 : m ∈ (docOf h T).fields
        · simp [c1, c2, this.mpr c2]
        · have : isStructFieldAlign h m = false := by
            cases hh : isStructFieldAlign h m
            · rfl
            · exact absurd (this.mp hh) c2
          simp [c1, c2, this]⟩)
  rw [flatMap_if] at h1
  refine ev_bind h1 ?_
  exact ev_reports (h := h) (T := T) (rep := fun t rs => rs.reportToken t (errSpaces, []))
    (line := fun t => about t "spacing must be exactly one space symbol") (fun _ _ => rfl) _
    (fun x hx => (named_leaf hc hn (List.mem_filter.mp hx).1).2.2.1) rs

/-! Trailing spaces -/

theorem mem_enders (d : Doc) (x : Nat) : ∀ l : List Nat, x ∈ d.enders l ↔
    ∃ A B, l = A ++ x :: B ∧ (B = [] ∨ ∃ y B', B = y :: B' ∧ d.name y = "indent")
  | [] => by simp [Doc.enders]
  | [y] => by
    rw [Doc.enders]
    constructor
    · intro hx
      exact ⟨[], [], by rw [List.mem_singleton.mp hx]; rfl, .inl rfl⟩
    · rintro ⟨A, B, e, -⟩
      have : x ∈ [y] := by rw [e]; simp
      exact this
  | y :: z :: l => by
    rw [Doc.enders, List.mem_append, mem_enders d x (z :: l)]
    constructor
    · rintro (h1 | ⟨A, B, e, h2⟩)
      · split at h1
        · rename_i hc
          rw [List.mem_singleton.mp h1]
          exact ⟨[], z :: l, rfl, .inr ⟨z, l, rfl, hc⟩⟩
        · cases h1
      · exact ⟨y :: A, B, by rw [e]; rfl, h2⟩
    · rintro ⟨A, B, e, h2⟩
      cases A with
      | nil =>
        simp only [List.nil_append, List.cons.injEq] at e
        obtain ⟨rfl, rfl⟩ := e
        left
        rcases h2 with h2 | ⟨y', B', e', h2⟩
        · cases h2
        · simp only [List.cons.injEq] at e'
          rw [if_pos (by rw [e'.1]; exact h2)]
          simp
      | cons c A =>
        simp only [List.cons_append, List.cons.injEq] at e
        exact .inr ⟨A, B, e.2, h2⟩

theorem indentFollows_iff (hc : Checkable h F T) {x : Nat} (hx : x ∈ T.elements) (hn : (h x).isNode = false) :
    indentFollows h x = true ↔ x ∈ (docOf h T).lineEnds := by
  unfold Doc.lineEnds
  rw [List.mem_flatMap]
  rcases has_parent T x hx with rfl | ⟨t, ht, k, hk, rfl⟩
  · rw [hc.root] at hn; cases hn
  · constructor
    · intro hi
      obtain ⟨A, B, e⟩ := List.append_of_mem hk
      obtain ⟨-, -, l3, -⟩ := kid_links hc ht e
      refine ⟨t, ht, ?_⟩
      rw [mem_enders]
      refine ⟨A.map Trees.Tree.id, B.map Trees.Tree.id, by rw [e]; simp, ?_⟩
      unfold indentFollows at hi
      rw [l3] at hi
      cases B with
      | nil => exact .inl rfl
      | cons b B => exact .inr ⟨b.id, B.map Trees.Tree.id, rfl, of_decide_eq_true hi⟩
    · rintro ⟨t', ht', he⟩
      rw [mem_enders] at he
      obtain ⟨A, B, e, h1⟩ := he
      have hF := kids_ids (parts_of T hc.whole t' ht')
      have := (hc.rep.link t'.id A k.id B (by rw [hF]; exact e)).2
      unfold indentFollows
      dsimp only at this
      rw [this]
      rcases h1 with rfl | ⟨y, B', rfl, h1⟩
      · rfl
      · exact decide_eq_true h1

theorem ev_trailing (hc : Checkable h F T) (rs : Reports) : Ev (fun f => reportTrailingSpaces h f T.id rs) (addAll rs (docOf h T).trailing) := by
  have hn : ∀ s ∈ ["space"], s ∈ ["indent", "space", "op"] := by simp
  have hn' : ∀ s ∈ ["indent"], s ∈ ["indent", "space", "op"] := by simp
  have follows : ∀ m ∈ T.elements, (h m).isNode = false → indentFollows h m = decide (m ∈ (docOf h T).lineEnds) := by
    intro m a1 a2
    have := indentFollows_iff hc a1 a2
    by_cases c : m ∈ (docOf h T).lineEnds
    · simp [c, this.mpr c]
    · cases hh : indentFollows h m
      · simp [c]
      · exact absurd (this.mp hh) c
  have h1 := ev_apply2 (n := T.id) (e1 := fun f n => searchLoop h (isA h ["space"]) 2 f (newWalker (some n) false) 0 [])
    (e2 := fun _ n => if indentFollows h n then .done [n] else .done [])
    (g := fun n => if decide (n ∈ (docOf h T).lineEnds) = true then [n] else [])
    (ev_leaves hc ["space"] hn) (fun m hm => ⟨0, fun _ _ => by
      obtain ⟨a1, a2, a3, a4, a5⟩ := named_leaf hc hn hm
      dsimp only
      rw [follows m a1 a2]
      split <;> rfl⟩)
  have h2 := ev_apply3 (n := T.id) (e1 := fun f n => searchLoop h (isA h ["indent"]) 2 f (newWalker (some n) false) 0 [])
    (e2 := fun _ n => bindRun (bindRun (literalRun h [10] n) fun b => .done !b) fun b => .done (if b then [n] else []))
    (e3 := fun _ n => if indentFollows h n then .done [n] else .done [])
    (g := fun n => if (decide (((docOf h T).tok n).content ≠ [10])) = true then [n] else [])
    (g' := fun n => if decide (n ∈ (docOf h T).lineEnds) = true then [n] else [])
    (ev_leaves hc ["indent"] hn') (fun m hm => ⟨0, fun _ _ => by
      obtain ⟨a1, a2, a3, a4, a5⟩ := named_leaf hc hn' hm
      simp only [literal_eq a2 a5, bindRun]
      by_cases c1 : ((docOf h T).tok m).content = [10] <;> simp [c1]⟩)
    (fun m hm k hk => ⟨0, fun _ _ => by
      obtain ⟨a1, a2, a3, a4, a5⟩ := named_leaf hc hn' hm
      split at hk
      · obtain rfl := List.mem_singleton.mp hk
        dsimp only
        rw [follows k a1 a2]
        split <;> rfl
      · cases hk⟩)
  rw [flatMap_if] at h1
  rw [flatMap_if, flatMap_if, List.filter_filter] at h2
  unfold Doc.trailing
  rw [addAll_append]
  refine ev_bind h1 ?_
  refine ev_bind (ev_reports (h := h) (T := T) (rep := fun t rs => rs.reportToken t (errTrailSpace, []))
    (line := fun t => about t "trailing spaces are not allowed") (fun _ _ => rfl) _
    (fun x hx => (named_leaf hc hn (List.mem_filter.mp hx).1).2.2.1) rs) ?_
  refine ev_bind h2 ?_
  have h3 := ev_reports (h := h) (T := T) (rep := fun t rs => rs.report (t.pos.lineCol.1 + 1) 1 (errTrailSpace, []))
    (line := fun t => (t.pos.lineCol.1 + 1, 1, "trailing spaces are not allowed", [])) (fun _ _ => rfl)
    (((docOf h T).named ["indent"]).filter fun x => decide (((docOf h T).tok x).content ≠ [10] ∧ x ∈ (docOf h T).lineEnds))
    (fun x hx => (named_leaf hc hn' (List.mem_filter.mp hx).1).2.2.1)
    (addAll rs ((((docOf h T).named ["space"]).filter fun x => x ∈ (docOf h T).lineEnds).map fun x =>
      about ((docOf h T).tok x) "trailing spaces are not allowed"))
  convert h3 using 5
  rw [Bool.decide_and, Bool.and_comm]

/-! Spaces near operators -/

theorem flags_eq (h : Heap) (prev next : Option Nat) (text : List Nat) : spaceFlags h prev next text =
    (if isSpace h prev then 8 else 0) + (if isSpace h next then 4 else 0) +
    (if isSpace h prev = decide (text = [123]) then 0 else 2) + (if isSpace h next = decide (text = [44] ∨ text = [125]) then 0 else 1) := by
  unfold spaceFlags
  by_cases t1 : text = [91] ∨ text = [93] ∨ text = [59]
  · have a : ¬ text = [123] := by rintro rfl; simp at t1
    have b : ¬ (text = [44] ∨ text = [125]) := by rintro (rfl | rfl) <;> simp at t1
    simp only [t1, a, b, if_true, decide_false]
    cases isSpace h prev <;> cases isSpace h next <;> decide
  · by_cases t2 : text = [44] ∨ text = [125]
    · have a : ¬ text = [123] := by rintro rfl; simp at t2
      simp only [t1, t2, a, if_true, if_false, decide_false, decide_true]
      cases isSpace h prev <;> cases isSpace h next <;> decide
    · by_cases t3 : text = [123]
      · simp only [t1, t2, t3, if_true, if_false, decide_false, decide_true]
        subst t3
        cases isSpace h prev <;> cases isSpace h next <;> decide
      · simp only [t1, t2, t3, if_false, decide_false]
        cases isSpace h prev <;> cases isSpace h next <;> decide

theorem neighbour_tok (hc : Checkable h F T) {y : Nat} (hy : y ∈ T.elements.filter fun y => !(docOf h T).node y) :
    tokenOf h (some y) = .done ((docOf h T).tok y) := by
  rw [List.mem_filter] at hy
  obtain ⟨t, h1, -⟩ := hc.leaf y hy.1 (by simpa [docOf] using hy.2)
  simp [tokenOf, h1, docOf]

theorem before_mem {x y : Nat} (hy : y ∈ (docOf h T).before x) : y ∈ T.elements.filter fun y => !(docOf h T).node y := by
  unfold Doc.before at hy
  rw [List.mem_filter] at hy ⊢
  exact ⟨(List.takeWhile_sublist _).subset hy.1, hy.2⟩

theorem after_mem {x y : Nat} (hy : y ∈ (docOf h T).after x) : y ∈ T.elements.filter fun y => !(docOf h T).node y := by
  unfold Doc.after at hy
  rw [List.mem_filter] at hy ⊢
  exact ⟨(List.dropWhile_sublist _).subset (List.mem_of_mem_tail hy.1), hy.2⟩

/-- What is reported about an operator. -/
def opLines (d : Doc) (x : Nat) (prev next : Option Nat) : List Line :=
  let text := (d.tok x).content
  let lead := prev.filter fun y => d.name y = "space"
  let trail := next.filter fun y => d.name y = "space"
  let place := if text = [123] then x else lead.getD x
  (if lead.isSome = decide (text = [123]) then []
    else [about (d.tok (lead.getD x)) ((if lead.isSome then "excess space" else "missing space") ++ " before ") text]) ++
  (if trail.isSome = decide (text = [44] ∨ text = [125]) then []
    else [about (d.tok (next.getD place)) ((if trail.isSome then "excess space" else "missing space") ++ " after ") text])

theorem isSpace_eq (p : Option Nat) : isSpace h p = (p.filter fun y => (docOf h T).name y = "space").isSome := by
  cases p with
  | none => rfl
  | some y =>
    by_cases c : (h y).typeName = "space" <;> simp [isSpace, docOf, Option.filter, c, spaceType]

theorem checkOp_eq {x : Nat} {prev next : Option Nat} {fuel : Nat} (rs : Reports)
    (h1 : prevToken h fuel (some x) = .done prev) (h2 : Tree.nextToken h fuel (some x) = .done next)
    (hx : tokenOf h (some x) = .done ((docOf h T).tok x))
    (hp : ∀ y, prev = some y → tokenOf h (some y) = .done ((docOf h T).tok y))
    (hq : ∀ y, next = some y → tokenOf h (some y) = .done ((docOf h T).tok y)) :
    checkOp h fuel x rs = .done (addAll rs (opLines (docOf h T) x prev next)) := by
  unfold checkOp
  rw [h1, h2]
  simp only [bindRun, hx]
  rw [flags_eq]
  unfold opLines
  dsimp only
  rw [isSpace_eq (T := T) prev, isSpace_eq (T := T) next]
  generalize hd : docOf h T = d at *
  generalize ht : (d.tok x).content = text
  generalize hl : (prev.filter fun y => d.name y = "space") = lead
  generalize htr : (next.filter fun y => d.name y = "space") = trail
  have hlead : ∀ y, lead = some y → prev = some y := by
    rintro y rfl
    exact (Option.filter_eq_some_iff.mp hl).1
  have htrail : trail.isSome = true → next.isSome = true := by
    intro hh
    obtain ⟨y, hy⟩ := Option.isSome_iff_exists.mp hh
    rw [hy] at htr
    rw [(Option.filter_eq_some_iff.mp htr).1]; rfl
  have e3 : (if text = [123] then x else lead.getD x) = if decide (text = [123]) = true then x else lead.getD x := by
    by_cases c : text = [123] <;> simp [c]
  rw [e3]
  generalize decide (text = [123]) = t1
  generalize decide (text = [44] ∨ text = [125]) = t2
  have fin : ∀ m a, addAll rs [about a m text] = rs.reportToken a (m, text) := fun _ _ => rfl
  have fin2 : ∀ m a m' a', addAll rs [about a m text, about a' m' text] = (rs.reportToken a (m, text)).reportToken a' (m', text) :=
    fun _ _ _ _ => rfl
  cases lead with
  | none =>
    cases next with
    | none =>
      cases trail with
      | none => cases t1 <;> cases t2 <;>
          simp [gotLead, gotTrail, wrongLead, wrongTrail, bindRun, spaceMessage, errNoSpace, errWrongSpace, addAll_nil, fin, fin2]
      | some z => simp at htrail
    | some q =>
      have := hq q rfl
      cases trail <;> cases t1 <;> cases t2 <;>
        simp [gotLead, gotTrail, wrongLead, wrongTrail, bindRun, spaceMessage, errNoSpace, errWrongSpace, addAll_nil, fin, fin2, this]
  | some y =>
    obtain rfl := hlead y rfl
    have hy := hp y rfl
    cases next with
    | none =>
      cases trail with
      | none => cases t1 <;> cases t2 <;>
          simp [gotLead, gotTrail, wrongLead, wrongTrail, bindRun, spaceMessage, errNoSpace, errWrongSpace, addAll_nil, fin, fin2, hy]
      | some z => simp at htrail
    | some q =>
      have := hq q rfl
      cases trail <;> cases t1 <;> cases t2 <;>
        simp [gotLead, gotTrail, wrongLead, wrongTrail, bindRun, spaceMessage, errNoSpace, errWrongSpace, addAll_nil, fin, fin2, this, hy]

theorem ev_opSpaces (hc : Checkable h F T) (rs : Reports) : Ev (fun f => reportIncorrectSpaces h f T.id rs) (addAll rs (docOf h T).opSpaces) := by
  have hn : ∀ s ∈ ["op"], s ∈ ["indent", "space", "op"] := by simp
  have h1 := ev_apply1 (n := T.id) (e1 := fun f n => searchLoop h (isA h ["op"]) 2 f (newWalker (some n) false) 0 []) (ev_leaves hc ["op"] hn)
  refine ev_bind h1 ?_
  refine ev_forEach (g := fun x => opLines (docOf h T) x ((docOf h T).before x).getLast? ((docOf h T).after x).head?) _ _ ?_
  intro x hx rs
  obtain ⟨a1, a2, a3, a4, a5⟩ := named_leaf hc hn hx
  obtain ⟨N, hN⟩ := prev_eq hc a1
  obtain ⟨M, hM⟩ := next_eq hc a1 a2
  refine ⟨N + M, fun f hf => checkOp_eq rs (hN f (by omega)) (hM f (by omega)) a3 ?_ ?_⟩
  · intro y hy
    exact neighbour_tok hc (before_mem (List.mem_of_getLast? hy))
  · intro y hy
    exact neighbour_tok hc (after_mem (List.mem_of_head? hy))

end Verif.Proof.Style
