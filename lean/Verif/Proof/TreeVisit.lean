import Verif.Proof.TreeWalk

namespace Verif.Model.Tree

open Verif.Spec Verif.Spec.Trees

/-- Flags of the specification. -/
def toFlags (f : Nat) : Flags := ⟨flagStop f, flagSkipChildren f, flagSkipSiblings f⟩

/-- The visitor of the specification. -/
def specVisitor {σ : Type} (v : σ → Nat × Nat → σ × Nat) (s : σ) (x : Nat × Nat) : σ × Flags :=
  ((v s x).1, toFlags (v s x).2)

/-- With enough fuel the loop ends with this result. -/
def Ends {σ : Type} (h : Heap) (v : σ → Nat × Nat → σ × Nat) (p : Walker × Stat) (s : σ) (r : σ × List (Nat × Nat)) : Prop :=
  ∃ N, ∀ fuel, N ≤ fuel → walkLoop h v fuel p s = .done r

theorem ends_nil {σ : Type} (h : Heap) (v : σ → Nat × Nat → σ × Nat) (w : Walker) (s : σ) : Ends h v (w, none) s (s, []) :=
  ⟨1, fun fuel hf => by obtain ⟨k, rfl⟩ : ∃ k, fuel = k + 1 := ⟨fuel - 1, by omega⟩; rfl⟩

theorem ends_nil_inv {σ : Type} {h : Heap} {v : σ → Nat × Nat → σ × Nat} {w : Walker} {s : σ} {r : σ × List (Nat × Nat)}
    (he : Ends h v (w, none) s r) : r = (s, []) := by
  obtain ⟨N, hN⟩ := he
  have h1 := hN (N + 1) (by omega)
  simp only [walkLoop] at h1
  exact (Run.done.inj h1).symm

theorem ends_stop {σ : Type} {h : Heap} {v : σ → Nat × Nat → σ × Nat} {w : Walker} {x : Nat × Nat} {s : σ}
    (hs : flagStop (v s x).2 = true) : Ends h v (w, some x) s ((v s x).1, [x]) :=
  ⟨1, fun fuel hf => by
    obtain ⟨k, rfl⟩ : ∃ k, fuel = k + 1 := ⟨fuel - 1, by omega⟩
    simp only [walkLoop]
    rw [if_pos hs]⟩

theorem ends_step {σ : Type} {h : Heap} {v : σ → Nat × Nat → σ × Nat} {w : Walker} {x : Nat × Nat} {s : σ}
    (hs : ¬ flagStop (v s x).2 = true) {r : σ × List (Nat × Nat)} (he : Ends h v (step h w (v s x).2) (v s x).1 r) :
    Ends h v (w, some x) s (r.1, x :: r.2) := by
  obtain ⟨N, hN⟩ := he
  refine ⟨N + 1, fun fuel hf => ?_⟩
  obtain ⟨k, rfl⟩ : ∃ k, fuel = k + 1 := ⟨fuel - 1, by omega⟩
  simp only [walkLoop]
  rw [if_neg hs, hN k (by omega)]

theorem exitLoop_congr (h : Heap) (w w' : Walker) (hw : w.rtl = w'.rtl) (root : Nat) : ∀ (st : List Nat) (cur f : Nat),
    exitLoop h w root st cur f = exitLoop h w' root st cur f
  | [], cur, f => by simp [exitLoop, hw, finish]
  | g :: st, cur, f => by
    simp only [exitLoop, hw, finish, exitLoop_congr h w w' hw root st]

theorem push_skip (st : List Nat) (f : Nat) : ∃ g, pushFlags st f = g :: st ∧ flagSkipSiblings g = flagSkipSiblings f := by
  refine ⟨_, rfl, ?_⟩
  unfold flagSkipSiblings
  split
  · rename_i hb
    have h1 : f / 2 % 2 = 1 := by
      have := hb
      rw [Nat.testBit_eq_decide_div_mod_eq] at this
      simpa using this
    rw [Nat.testBit_eq_decide_div_mod_eq, Nat.testBit_eq_decide_div_mod_eq]
    congr 1
    have : (f - 2) / 2 ^ 2 = f / 2 ^ 2 := by norm_num; omega
    rw [this]
  · rfl

theorem visitAll_outcome {σ : Type} (v : σ → Nat × Nat → σ × Flags) (l : Nat) : ∀ (ts : List Tree) (s : σ),
    (visitAll v l s ts).2.2 ≠ .skipRest
  | [], s => by simp [visitAll]
  | t :: ts, s => by
    simp only [visitAll]
    cases ho : (visit v l s t).2.2 with
    | stop => simp [ho]
    | skipRest => simp [ho]
    | goOn => simp only; exact visitAll_outcome v l ts _

/-- Where the walk goes on: the root, the stack and the current element. -/
def at_ (rt cur : Nat) (st : List Nat) : Walker := ⟨some rt, some cur, st, false⟩

theorem exitLoop_root (h : Heap) (w : Walker) (rt : Nat) (st : List Nat) (f : Nat) :
    exitLoop h w rt st rt f = finish w rt := by
  cases st <;> simp [exitLoop]

theorem step_at (h : Heap) (rt id : Nat) (st : List Nat) (f : Nat) (hstop : ¬ flagStop f = true) :
    step h (at_ rt id st) f =
      match (if ((h id).isNode && !flagSkipChildren f) = true then (h id).firstChild else none) with
      | some n => (at_ rt n (pushFlags st f), some (n, (pushFlags st f).length))
      | none => exitLoop h (at_ rt id st) rt st id f := by
  have e : (if flagStop f = true then { at_ rt id st with root := none, flagStack := [] } else at_ rt id st) =
      at_ rt id st := if_neg hstop
  unfold step
  simp only [e]
  rfl

/-- What remains after the children of `p` are passed; `g` are the flags of `p`. -/
theorem exit_child {σ : Type} {h : Heap} {F : Forest} (r : Rep h F) {v : σ → Nat × Nat → σ × Nat} {rt p c : Nat}
    {g f : Nat} {st : List Nat} (hc : c ∈ F p) (hcr : c ≠ rt) (hroot : st = [] → p = rt) {w : Walker}
    (hw : w.rtl = false) (hs : sibling h false c f = none) {s : σ} {res : σ × List (Nat × Nat)}
    (he : Ends h v (exitLoop h w rt st p g) s res) : Ends h v (exitLoop h w rt (g :: st) c f) s res := by
  simp only [exitLoop, if_neg hcr, hw, hs, (r.parent p c).2 hc]
  by_cases hst : st = []
  · subst hst
    rw [hroot rfl, exitLoop_root] at he
    simp only [List.length_cons, List.length_nil]
    rw [if_pos (by omega)]
    have := ends_nil_inv he
    rw [this]
    exact ends_nil h v _ s
  · rw [if_neg (by
      have : st.length ≠ 0 := fun h => hst (List.length_eq_zero_iff.1 h)
      simp only [List.length_cons]; omega)]
    exact he

mutual
theorem walk_tree {σ : Type} {h : Heap} {F : Forest} (r : Rep h F) (v : σ → Nat × Nat → σ × Nat) (rt : Nat) :
    ∀ (t : Tree) (_ : t.Of F) (st : List Nat) (s : σ) (_ : Within F rt t.id) (_ : st = [] → t.id = rt) (l : Nat) (_ : l = st.length),
    ((visit (specVisitor v) l s t).2.2 = .stop →
      Ends h v (at_ rt t.id st, some (t.id, l)) s
        ((visit (specVisitor v) l s t).1, (visit (specVisitor v) l s t).2.1)) ∧
    ((visit (specVisitor v) l s t).2.2 ≠ .stop → ∀ (f : Nat) (res : σ × List (Nat × Nat)),
      (flagSkipSiblings f = true ↔ (visit (specVisitor v) l s t).2.2 = .skipRest) →
      (∀ f', flagSkipSiblings f' = flagSkipSiblings f →
        Ends h v (exitLoop h (at_ rt t.id st) rt st t.id f') (visit (specVisitor v) l s t).1 res) →
      Ends h v (at_ rt t.id st, some (t.id, l)) s
        (res.1, (visit (specVisitor v) l s t).2.1 ++ res.2))
  | .node id kids, ht, st, s, hin, hst, l, hl => by
    have ht' := ht
    simp only [Tree.Of] at ht
    simp only [Tree.id] at hin hst ⊢
    subst hl
    simp only [visit]
    by_cases hstop : flagStop (v s (id, st.length)).2 = true
    · have e : (specVisitor v s (id, st.length)).2.stop = true := hstop
      simp only [e, if_true]
      refine ⟨fun _ => ends_stop hstop, fun h => absurd rfl h⟩
    · have e : (specVisitor v s (id, st.length)).2.stop = false := by
        simpa [specVisitor, toFlags] using hstop
      simp only [e]
      have hsv : (specVisitor v s (id, st.length)).1 = (v s (id, st.length)).1 := rfl
      have hsc : (specVisitor v s (id, st.length)).2.skipChildren = flagSkipChildren (v s (id, st.length)).2 := rfl
      have hss : (specVisitor v s (id, st.length)).2.skipSiblings = flagSkipSiblings (v s (id, st.length)).2 := rfl
      rw [hsv, hsc, hss]
      generalize hvs : v s (id, st.length) = q at *
      obtain ⟨s1, f1⟩ := q
      simp only at hstop ⊢
      have hstep0 : flagSkipChildren f1 = true ∨ kids = [] →
          step h (at_ rt id st) f1 = exitLoop h (at_ rt id st) rt st id f1 := by
        intro hk
        rw [step_at h rt id st f1 hstop]
        have : (if ((h id).isNode && !flagSkipChildren f1) = true then (h id).firstChild else none) = none := by
          rcases hk with hk | hk
          · simp [hk]
          · by_cases hn : (h id).isNode = true
            · have := r.first id hn
              rw [ht.1, hk] at this
              simp [this]
            · simp [hn]
        rw [this]
      by_cases hleaf : flagSkipChildren f1 = true ∨ kids = []
      · have ek : (if flagSkipChildren f1 = true then (s1, ([] : List (Nat × Nat)), Outcome.goOn)
            else visitAll (specVisitor v) (st.length + 1) s1 kids) = (s1, [], .goOn) := by
          rcases hleaf with hk | hk
          · rw [if_pos hk]
          · subst hk; simp [visitAll]
        rw [ek]
        simp only
        refine ⟨fun h => absurd h (by cases flagSkipSiblings f1 <;> simp), fun _ f res hf he => ?_⟩
        have := ends_step (h := h) (v := v) (w := at_ rt id st) (x := (id, st.length)) (s := s)
          (r := res) (by rw [hvs]; exact hstop) (by
            rw [hvs]
            simp only
            rw [hstep0 hleaf]
            refine he f1 ?_
            by_cases hb : flagSkipSiblings f1 = true
            · rw [hb]; exact (hf.2 (by simp [hb])).symm
            · have : ¬ flagSkipSiblings f = true := fun h' => by have := hf.1 h'; simp [hb] at this
              simp at hb this
              rw [hb, this])
        simpa using this
      · push Not at hleaf
        obtain ⟨hnc, hk⟩ := hleaf
        rw [if_neg hnc]
        obtain ⟨g, hg, hgs⟩ := push_skip st f1
        obtain ⟨k1, ks, rfl⟩ : ∃ k1 ks, kids = k1 :: ks := by
          cases kids with
          | nil => exact absurd rfl hk
          | cons a b => exact ⟨a, b, rfl⟩
        have hmem : k1.id ∈ F id := by rw [ht.1]; simp
        have hn := r.isNode hmem
        have hstep1 : step h (at_ rt id st) f1 = (at_ rt k1.id (g :: st), some (k1.id, (g :: st).length)) := by
          rw [step_at h rt id st f1 hstop]
          have hfc := r.first id hn
          rw [ht.1] at hfc
          simp only [List.map_cons, List.head?_cons] at hfc
          simp [hn, hnc, hfc, hg]
        have key := walk_trees r v rt id k1 ks ht.2 [] (by simpa using ht.1) st g s1 hin hst (st.length + 1) rfl
        generalize hva : visitAll (specVisitor v) (st.length + 1) s1 (k1 :: ks) = q at *
        obtain ⟨s2, out, o⟩ := q
        have ho : o ≠ .skipRest := by
          have := visitAll_outcome (specVisitor v) (st.length + 1) (k1 :: ks) s1
          rw [hva] at this
          exact this
        simp only at key ⊢
        refine ⟨fun h1 => ?_, fun h1 f res hf he => ?_⟩
        · have ho' : o = .stop := by
            by_contra hc
            rw [if_neg hc] at h1
            cases hb : flagSkipSiblings f1 <;> simp [hb] at h1
          have := ends_step (h := h) (v := v) (w := at_ rt id st) (x := (id, st.length)) (s := s)
            (r := (s2, out)) (by rw [hvs]; exact hstop) (by
              rw [hvs]; simp only; rw [hstep1]
              exact key.1 ho')
          simpa using this
        · have ho' : o ≠ .stop := by
            rintro rfl
            simp at h1
          rw [if_neg ho'] at hf
          have := ends_step (h := h) (v := v) (w := at_ rt id st) (x := (id, st.length)) (s := s)
            (r := (res.1, out ++ res.2)) (by rw [hvs]; exact hstop) (by
              rw [hvs]; simp only; rw [hstep1]
              refine key.2 ho' res ?_
              rw [exitLoop_congr h (at_ rt k1.id (g :: st)) (at_ rt id st) rfl]
              refine he g ?_
              rw [hgs]
              by_cases hb : flagSkipSiblings f1 = true
              · rw [hb]; exact (hf.2 (by simp [hb])).symm
              · have : ¬ flagSkipSiblings f = true := fun h' => by have := hf.1 h'; simp [hb] at this
                simp at hb this
                rw [hb, this])
          simpa using this
  termination_by t => sizeOf t
theorem walk_trees {σ : Type} {h : Heap} {F : Forest} (r : Rep h F) (v : σ → Nat × Nat → σ × Nat) (rt p : Nat) :
    ∀ (t : Tree) (ts : List Tree) (_ : Trees.allOf F (t :: ts)) (pre : List Nat) (_ : F p = pre ++ (t :: ts).map Tree.id)
    (st : List Nat) (g : Nat) (s : σ) (_ : Within F rt p) (_ : st = [] → p = rt) (l : Nat) (_ : l = st.length + 1),
    ((visitAll (specVisitor v) l s (t :: ts)).2.2 = .stop →
      Ends h v (at_ rt t.id (g :: st), some (t.id, l)) s
        ((visitAll (specVisitor v) l s (t :: ts)).1, (visitAll (specVisitor v) l s (t :: ts)).2.1)) ∧
    ((visitAll (specVisitor v) l s (t :: ts)).2.2 ≠ .stop → ∀ (res : σ × List (Nat × Nat)),
      Ends h v (exitLoop h (at_ rt t.id (g :: st)) rt st p g) (visitAll (specVisitor v) l s (t :: ts)).1 res →
      Ends h v (at_ rt t.id (g :: st), some (t.id, l)) s
        (res.1, (visitAll (specVisitor v) l s (t :: ts)).2.1 ++ res.2))
  | t, ts, ha, pre, hF, st, g, s, hin, hst, l, hl => by
    have ha' := ha
    simp only [Trees.allOf] at ha
    have hmem : t.id ∈ F p := by rw [hF]; simp
    have hne : t.id ≠ rt := by
      intro e
      exact r.no_cycle hmem (e ▸ hin)
    have key := walk_tree r v rt t ha.1 (g :: st) s (hin.tail hmem) (by simp) l (by simp [hl])
    simp only [visitAll]
    generalize hvt : visit (specVisitor v) l s t = q at *
    obtain ⟨s2, out, o⟩ := q
    simp only at key ⊢
    cases o with
    | stop => exact ⟨fun _ => key.1 rfl, fun h => absurd rfl h⟩
    | skipRest =>
      refine ⟨fun h => by simp at h, fun _ res he => ?_⟩
      refine key.2 (by simp) 4 res (by decide) ?_
      intro f' hf'
      refine exit_child r hmem hne hst rfl ?_ he
      have : flagSkipSiblings f' = true := by rw [hf']; decide
      simp [sibling, this]
    | goOn =>
      have hlink := r.link p pre t.id (ts.map Tree.id) (by simpa using hF)
      have hsib : ∀ f', flagSkipSiblings f' = flagSkipSiblings 0 →
          sibling h false t.id f' = (ts.map Tree.id).head? := by
        intro f' hf'
        have : flagSkipSiblings f' = false := by rw [hf']; decide
        simp [sibling, this, hlink.2]
      match ts, ha, hF, hsib with
      | [], _, _, hsib =>
        refine ⟨fun h => by simp [visitAll] at h, fun _ res he => ?_⟩
        simp only [visitAll] at he ⊢
        rw [List.append_nil]
        refine key.2 (by simp) 0 res (by decide) ?_
        intro f' hf'
        exact exit_child r hmem hne hst rfl (by simpa using hsib f' hf') he
      | t2 :: ts, ha, hF, hsib =>
        have key2 := walk_trees r v rt p t2 ts ha.2 (pre ++ [t.id]) (by simpa using hF) st g s2 hin hst l hl
        generalize hva : visitAll (specVisitor v) l s2 (t2 :: ts) = q2 at *
        obtain ⟨s3, out3, o3⟩ := q2
        simp only at key2 ⊢
        have hexit : ∀ f', flagSkipSiblings f' = flagSkipSiblings 0 →
            exitLoop h (at_ rt t.id (g :: st)) rt (g :: st) t.id f' =
              (at_ rt t2.id (g :: st), some (t2.id, l)) := by
          intro f' hf'
          have e : sibling h (at_ rt t.id (g :: st)).rtl t.id f' = some t2.id := hsib f' hf'
          simp only [exitLoop, if_neg hne, e]
          simp [at_, hl]
        refine ⟨fun ho => ?_, fun ho res he => ?_⟩
        · refine key.2 (by simp) 0 (s3, out3) (by decide) ?_
          intro f' hf'
          rw [hexit f' hf']
          exact key2.1 ho
        · have := key.2 (by simp) 0 (res.1, out3 ++ res.2) (by decide) ?_
          · simpa using this
          · intro f' hf'
            rw [hexit f' hf']
            refine key2.2 ho res ?_
            rw [exitLoop_congr h (at_ rt t2.id (g :: st)) (at_ rt t.id (g :: st)) rfl]
            exact he
  termination_by t ts => sizeOf t + sizeOf ts + 1
end

theorem walk_spec_ltr {σ : Type} {h : Heap} {F : Forest} (r : Rep h F) (v : σ → Nat × Nat → σ × Nat) (t : Tree)
    (ht : t.Of F) (s : σ) : ∃ N, ∀ fuel, N ≤ fuel → walk h fuel (some t.id) false v s =
      .done ((visit (specVisitor v) 0 s t).1, (visit (specVisitor v) 0 s t).2.1) := by
  have key := walk_tree r v t.id t ht [] s .refl (fun _ => rfl) 0 rfl
  have e : step h (newWalker (some t.id) false) 0 = (at_ t.id t.id [], some (t.id, 0)) := by
    simp [step, newWalker, at_, flagStop]
  unfold walk
  rw [e]
  by_cases ho : (visit (specVisitor v) 0 s t).2.2 = .stop
  · exact key.1 ho
  · have h1 : ∀ f, (flagSkipSiblings f = true ↔ (visit (specVisitor v) 0 s t).2.2 = .skipRest) →
        Ends h v (at_ t.id t.id [], some (t.id, 0)) s
        ((visit (specVisitor v) 0 s t).1, (visit (specVisitor v) 0 s t).2.1 ++ []) := by
      intro f hf
      refine key.2 ho f (_, []) hf ?_
      intro f' _
      rw [exitLoop_root]
      exact ends_nil h v _ _
    simp only [List.append_nil] at h1
    by_cases hk : (visit (specVisitor v) 0 s t).2.2 = .skipRest
    · exact h1 4 (by simp [hk, flagSkipSiblings]; decide)
    · exact h1 0 (by simp [hk, flagSkipSiblings])

/-- The tree as it is passed. -/
def oriented (rtl : Bool) (t : Tree) : Tree := if rtl then t.mirror else t

theorem walk_spec {σ : Type} {h : Heap} {F : Forest} (r : Rep h F) (v : σ → Nat × Nat → σ × Nat) (t : Tree)
    (ht : t.Of F) (rtl : Bool) (s : σ) : ∃ N, ∀ fuel, N ≤ fuel → walk h fuel (some t.id) rtl v s =
      .done ((visit (specVisitor v) 0 s (oriented rtl t)).1, (visit (specVisitor v) 0 s (oriented rtl t)).2.1) := by
  cases rtl with
  | false => exact walk_spec_ltr r v t ht s
  | true =>
    obtain ⟨N, hN⟩ := walk_spec_ltr (rep_mirror r) v t.mirror (mirror_of t ht) s
    refine ⟨N, fun fuel hf => ?_⟩
    rw [walk_rtl, ← mirror_id t]
    exact hN fuel hf

theorem exitLoop_none_root {h : Heap} {w : Walker} {root : Nat} : ∀ (st : List Nat) (cur f : Nat),
    (exitLoop h w root st cur f).2 = none → (exitLoop h w root st cur f).1.root = none
  | [], cur, f => by
    simp only [exitLoop]
    by_cases hc : cur = root
    · simp [hc, finish]
    · simp only [if_neg hc]
      cases sibling h w.rtl cur f <;> simp [finish]
  | g :: st, cur, f => by
    simp only [exitLoop]
    by_cases hc : cur = root
    · simp [hc, finish]
    · simp only [if_neg hc]
      cases sibling h w.rtl cur f with
      | some n => simp
      | none =>
        cases (h cur).parent with
        | none => simp [finish]
        | some n =>
          by_cases hl : (g :: st).length < 2
          · simp only [if_pos hl]; simp [finish]
          · simp only [if_neg hl]; exact exitLoop_none_root st n g

theorem step_none_root {h : Heap} {w : Walker} {f : Nat} (hs : (step h w f).2 = none) : (step h w f).1.root = none := by
  unfold step at hs ⊢
  generalize (if flagStop f = true then { w with root := none, flagStack := [] } else w) = w' at hs ⊢
  obtain ⟨root, cur, st, rtl⟩ := w'
  cases root with
  | none => rfl
  | some root =>
    cases cur with
    | none => simp at hs
    | some cur =>
      simp only at hs ⊢
      cases hc : (if ((h cur).isNode && !flagSkipChildren f) = true then
          if rtl = true then (h cur).lastChild else (h cur).firstChild else none) with
      | some n => rw [hc] at hs; simp at hs
      | none =>
        rw [hc] at hs
        exact exitLoop_none_root _ _ _ hs

theorem step_of_none {h : Heap} {w : Walker} (hw : w.root = none) (f : Nat) :
    (step h w f).2 = none ∧ (step h w f).1.root = none := by
  unfold step
  by_cases hs : flagStop f = true
  · simp [hs]
  · simp [hs, hw]

end Verif.Model.Tree
