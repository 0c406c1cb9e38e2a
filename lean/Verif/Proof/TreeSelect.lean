import Verif.Proof.TreeTokens
import Verif.Spec.Select

namespace Verif.Model.Tree

open Verif.Spec Verif.Spec.Trees Verif.Spec.Select

/-- With enough fuel the computation gives the value. -/
def Ev {α : Type} (x : Nat → Run α) (a : α) : Prop := ∃ N, ∀ fuel, N ≤ fuel → x fuel = .done a

theorem ev_done {α : Type} (a : α) : Ev (fun _ => .done a) a := ⟨0, fun _ _ => rfl⟩

theorem ev_bind {α β : Type} {x : Nat → Run α} {k : Nat → α → Run β} {a : α} {b : β} (hx : Ev x a)
    (hk : Ev (fun f => k f a) b) : Ev (fun f => bindRun (x f) (k f)) b := by
  obtain ⟨N, hN⟩ := hx
  obtain ⟨M, hM⟩ := hk
  refine ⟨N + M, fun fuel hf => ?_⟩
  simp only [hN fuel (by omega), bindRun]
  exact hM fuel (by omega)

theorem ev_foldl {β : Type} {step : Nat → List Nat → β → Run (List Nat)} {f : List Nat → β → List Nat}
    (hs : ∀ acc n, Ev (fun fuel => step fuel acc n) (f acc n)) : ∀ (ns : List β) (init : Nat → Run (List Nat)) (acc : List Nat),
    Ev init acc → Ev (fun fuel => ns.foldl (fun res n => bindRun res fun res => step fuel res n) (init fuel)) (ns.foldl f acc)
  | [], init, acc, h => h
  | n :: ns, init, acc, h => by
    simp only [List.foldl_cons]
    exact ev_foldl hs ns _ _ (ev_bind h (hs acc n))

/-- Extractors that end with the results of these functions. -/
def Computes : List (Nat → Extractor) → List (Nat → List Nat) → Prop
  | [], [] => True
  | ex :: exs, g :: gs => (∀ n, Ev (fun fuel => ex fuel n) (g n)) ∧ Computes exs gs
  | _, _ => False

theorem foldl_append (g : Nat → List Nat) : ∀ (ns acc : List Nat), ns.foldl (fun acc n => acc ++ g n) acc = acc ++ ns.flatMap g
  | [], acc => by simp
  | n :: ns, acc => by simp [foldl_append g ns]

theorem selectNodes_spec : ∀ (exs : List (Nat → Extractor)) (gs : List (Nat → List Nat)) (ex : Nat → Extractor)
    (g : Nat → List Nat), Computes (ex :: exs) (g :: gs) →
    ∀ ns, Ev (fun fuel => selectNodes (ex fuel) (exs.map (· fuel)) ns) (ns.flatMap (steps (g :: gs)))
  | [], [], ex, g, h, ns => by
    have key := ev_foldl (step := fun fuel res n => bindRun (ex fuel n) fun l => .done (res ++ l))
      (f := fun acc n => acc ++ g n) (fun acc n => ev_bind (h.1 n) (ev_done _)) ns (fun _ => .done []) [] (ev_done _)
    rw [foldl_append] at key
    have e : steps [g] = g := by funext n; simp [steps]
    rw [e]
    simpa [selectNodes] using key
  | [], _ :: _, ex, g, h, ns => by simp [Computes] at h
  | _ :: _, [], ex, g, h, ns => by simp [Computes] at h
  | ex' :: exs, g' :: gs, ex, g, h, ns => by
    have ih := selectNodes_spec exs gs ex' g' h.2
    have key := ev_foldl (step := fun fuel res n => bindRun (ex fuel n) fun l =>
        bindRun (selectNodes (ex' fuel) (exs.map (· fuel)) l) fun l' => .done (res ++ l'))
      (f := fun acc n => acc ++ steps (g :: g' :: gs) n)
      (fun acc n => ev_bind (h.1 n) (ev_bind (ih _) (ev_done _))) ns (fun _ => .done []) [] (ev_done _)
    rw [foldl_append] at key
    simpa [selectNodes] using key

theorem addUnique_eq : ∀ (l res seen : List Nat), (∀ x, x ∈ res ↔ x ∈ seen) → addUnique res l = res ++ firstsFrom seen l
  | [], res, seen, _ => by simp [addUnique, firstsFrom]
  | x :: l, res, seen, hs => by
    simp only [addUnique, firstsFrom]
    by_cases hx : x ∈ res
    · rw [if_pos (by simpa using hx), if_pos ((hs x).1 hx), addUnique_eq l res seen hs]
    · rw [if_neg (by simpa using hx), if_neg (fun h => hx ((hs x).2 h)),
        addUnique_eq l (res ++ [x]) (x :: seen) (by intro y; simp [hs y]; tauto)]
      simp

theorem firstsFrom_spec : ∀ (l seen : List Nat), (firstsFrom seen l).Nodup ∧
    (∀ x, x ∈ firstsFrom seen l ↔ x ∈ l ∧ x ∉ seen) ∧ (firstsFrom seen l).Sublist l
  | [], seen => by simp [firstsFrom]
  | x :: l, seen => by
    simp only [firstsFrom]
    by_cases hx : x ∈ seen
    · rw [if_pos hx]
      obtain ⟨h1, h2, h3⟩ := firstsFrom_spec l seen
      refine ⟨h1, fun y => ?_, h3.cons _⟩
      rw [h2]
      simp
      rintro hy rfl
      exact absurd hx hy
    · rw [if_neg hx]
      obtain ⟨h1, h2, h3⟩ := firstsFrom_spec l (x :: seen)
      refine ⟨?_, fun y => ?_, h3.cons_cons _⟩
      · rw [List.nodup_cons]
        exact ⟨fun h => by rw [h2] at h; simp at h, h1⟩
      · rw [List.mem_cons, h2, List.mem_cons]
        by_cases hy : y = x
        · subst hy; simp [hx]
        · simp [hy]

theorem addUnique_append (b : List Nat) : ∀ (l res : List Nat), addUnique (addUnique res l) b = addUnique res (l ++ b)
  | [], res => by simp [addUnique]
  | x :: l, res => by
    simp only [addUnique, List.cons_append]
    split
    · exact addUnique_append b l res
    · exact addUnique_append b l _

theorem foldl_unique (g : Nat → List Nat) : ∀ (ns : List (Option Nat)) (acc : List Nat),
    ns.foldl (fun acc n => match n with | none => acc | some n => addUnique acc (g n)) acc =
      addUnique acc ((ns.filterMap id).flatMap g)
  | [], acc => by simp [addUnique]
  | none :: ns, acc => by simp [foldl_unique g ns]
  | some n :: ns, acc => by simp [foldl_unique g ns, addUnique_append]

theorem foldl_plain (g : Nat → List Nat) : ∀ (ns : List (Option Nat)) (acc : List Nat),
    ns.foldl (fun acc n => match n with | none => acc | some n => acc ++ g n) acc =
      acc ++ (ns.filterMap id).flatMap g
  | [], acc => by simp
  | none :: ns, acc => by simp [foldl_plain g ns]
  | some n :: ns, acc => by simp [foldl_plain g ns]

theorem apply_spec (exs : List (Nat → Extractor)) (unique : Bool) (gs : List (Nat → List Nat)) (hc : Computes exs gs)
    (input : List (Option Nat)) : Ev (fun fuel => Selector.apply ⟨exs.map (· fuel), unique⟩ input)
      (if unique then firsts ((input.filterMap id).flatMap (steps gs)) else (input.filterMap id).flatMap (steps gs)) := by
  have hns : ∀ n, Ev (fun fuel => selectOne (exs.map (· fuel)) n) (steps gs n) := by
    intro n
    match exs, gs, hc with
    | [], [], _ => exact ev_done _
    | ex :: exs, g :: gs, hc => simpa [selectOne] using selectNodes_spec exs gs ex g hc [n]
  have key := ev_foldl (β := Option Nat) (step := fun fuel res n => Selector.turn ⟨exs.map (· fuel), unique⟩ res n)
    (f := fun acc n => match n with
      | none => acc
      | some n => if unique then addUnique acc (steps gs n) else acc ++ steps gs n)
    (fun acc n => by
      cases n with
      | none => exact ev_done _
      | some n => exact ev_bind (hns n) ⟨0, fun _ _ => rfl⟩) input (fun _ => .done []) [] (ev_done _)
  cases unique with
  | false =>
    simp only [Bool.false_eq_true, if_false] at key ⊢
    rw [foldl_plain] at key
    simpa [Selector.apply] using key
  | true =>
    simp only [if_true] at key ⊢
    rw [foldl_unique, addUnique_eq _ [] [] (by simp)] at key
    simpa [Selector.apply, firsts] using key

/-! Search -/

/-- The visitor of `search`. -/
def searchVisitor (nf : Nat → Bool) (flags : Nat) (res : List Nat) (x : Nat × Nat) : List Nat × Nat :=
  if nf x.1 then (res ++ [x.1], flags) else (res, 0)

theorem searchLoop_eq (h : Heap) (nf : Nat → Bool) (flags : Nat) (hflags : flagStop flags = false) :
    ∀ (fuel : Nat) (w : Walker) (f : Nat) (res : List Nat) (r : List Nat × List (Nat × Nat)),
    walkLoop h (searchVisitor nf flags) fuel (step h w f) res = .done r →
      searchLoop h nf flags fuel w f res = .done r.1
  | 0, w, f, res, r, he => by simp [walkLoop] at he
  | fuel + 1, w, f, res, r, he => by
    simp only [searchLoop]
    generalize hs : step h w f = q at he
    obtain ⟨w', st⟩ := q
    cases st with
    | none =>
      simp only [walkLoop] at he
      rw [← Run.done.inj he]
    | some x =>
      simp only [walkLoop] at he ⊢
      have hstop : ¬ flagStop (searchVisitor nf flags res x).2 = true := by
        unfold searchVisitor
        split
        · simp [hflags]
        · simp [flagStop]
      rw [if_neg hstop] at he
      cases hw : walkLoop h (searchVisitor nf flags) fuel (step h w' (searchVisitor nf flags res x).2)
          (searchVisitor nf flags res x).1 with
      | panic => rw [hw] at he; simp at he
      | timeout => rw [hw] at he; simp at he
      | done r' =>
        rw [hw] at he
        simp only at he
        have hr := Run.done.inj he
        have ih := searchLoop_eq h nf flags hflags fuel w' _ _ r' hw
        rw [← hr]
        simp only
        rw [← ih]
        unfold searchVisitor
        by_cases hn : nf x.1 = true
        · rw [if_pos hn, if_pos hn]
        · rw [if_neg hn, if_neg hn]

theorem flag2 : flagStop 2 = false ∧ flagSkipChildren 2 = true ∧ flagSkipSiblings 2 = false := by decide

theorem flag0 : flagStop 0 = false ∧ flagSkipChildren 0 = false ∧ flagSkipSiblings 0 = false := by decide

mutual
theorem visit_deep (nf : Nat → Bool) : ∀ (t : Tree) (l : Nat) (s : List Nat),
    (visit (specVisitor (searchVisitor nf 0)) l s t).1 = s ++ t.elements.filter nf ∧
    (visit (specVisitor (searchVisitor nf 0)) l s t).2.2 = .goOn
  | .node id kids, l, s => by
    have hf : (specVisitor (searchVisitor nf 0) s (id, l)).2 = toFlags 0 := by
      simp only [specVisitor, searchVisitor]
      split <;> rfl
    have hs : (specVisitor (searchVisitor nf 0) s (id, l)).1 = s ++ [id].filter nf := by
      simp only [specVisitor, searchVisitor]
      split <;> simp [*]
    obtain ⟨h1, h2⟩ := visitAll_deep nf kids (l + 1) (s ++ [id].filter nf)
    simp only [visit, hf, hs, toFlags, flag0.1, flag0.2.1, flag0.2.2, Tree.elements]
    simp only [Bool.false_eq_true, if_false, h1, h2]
    simp [List.filter_cons]
    split <;> simp
theorem visitAll_deep (nf : Nat → Bool) : ∀ (ts : List Tree) (l : Nat) (s : List Nat),
    (visitAll (specVisitor (searchVisitor nf 0)) l s ts).1 = s ++ (elementsOf ts).filter nf ∧
    (visitAll (specVisitor (searchVisitor nf 0)) l s ts).2.2 = .goOn
  | [], l, s => by simp [visitAll, elementsOf]
  | t :: ts, l, s => by
    obtain ⟨h1, h2⟩ := visit_deep nf t l s
    obtain ⟨h3, h4⟩ := visitAll_deep nf ts l (s ++ t.elements.filter nf)
    simp only [visitAll, h1, h2, h3, h4, elementsOf]
    simp
end

mutual
theorem visit_top (nf : Nat → Bool) : ∀ (t : Tree) (l : Nat) (s : List Nat),
    (visit (specVisitor (searchVisitor nf 2)) l s t).1 = s ++ topmost nf t ∧
    (visit (specVisitor (searchVisitor nf 2)) l s t).2.2 = .goOn
  | .node id kids, l, s => by
    by_cases hn : nf id = true
    · have hv : specVisitor (searchVisitor nf 2) s (id, l) = (s ++ [id], toFlags 2) := by
        simp [specVisitor, searchVisitor, hn]
      simp [visit, hv, toFlags, flag2, topmost, hn]
    · have hv : specVisitor (searchVisitor nf 2) s (id, l) = (s, toFlags 0) := by
        simp [specVisitor, searchVisitor, hn]
      obtain ⟨h1, h2⟩ := visitAll_top nf kids (l + 1) s
      simp [visit, hv, toFlags, flag0, topmost, hn, h1, h2]
theorem visitAll_top (nf : Nat → Bool) : ∀ (ts : List Tree) (l : Nat) (s : List Nat),
    (visitAll (specVisitor (searchVisitor nf 2)) l s ts).1 = s ++ topmostOf nf ts ∧
    (visitAll (specVisitor (searchVisitor nf 2)) l s ts).2.2 = .goOn
  | [], l, s => by simp [visitAll, topmostOf]
  | t :: ts, l, s => by
    obtain ⟨h1, h2⟩ := visit_top nf t l s
    obtain ⟨h3, h4⟩ := visitAll_top nf ts l (s ++ topmost nf t)
    simp only [visitAll, h1, h2, h3, h4, topmostOf]
    simp
end

theorem search_spec {h : Heap} {F : Forest} (r : Rep h F) (nf : Nat → Bool) (deep : Bool) (t : Tree) (ht : t.Of F) :
    ∃ N, ∀ fuel, N ≤ fuel →
      searchLoop h nf (if deep then 0 else 2) fuel (newWalker (some t.id) false) 0 [] =
        .done (if deep then t.elements.filter nf else topmost nf t) := by
  cases deep with
  | true =>
    obtain ⟨N, hN⟩ := walk_spec r (searchVisitor nf 0) t ht false []
    refine ⟨N, fun fuel hf => ?_⟩
    have := searchLoop_eq h nf 0 flag0.1 fuel _ _ _ _ (hN fuel hf)
    simp only [if_true]
    rw [this]
    simp [oriented, (visit_deep nf t 0 []).1]
  | false =>
    obtain ⟨N, hN⟩ := walk_spec r (searchVisitor nf 2) t ht false []
    refine ⟨N, fun fuel hf => ?_⟩
    have := searchLoop_eq h nf 2 flag2.1 fuel _ _ _ _ (hN fuel hf)
    simp only [Bool.false_eq_true, if_false]
    rw [this]
    simp [oriented, (visit_top nf t 0 []).1]

end Verif.Model.Tree
