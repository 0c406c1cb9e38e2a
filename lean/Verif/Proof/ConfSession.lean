/-
Commands of the configuration editor.
-/
import Verif.Proof.ConfLoad

namespace Verif.Proof.ConfTree

open Verif Verif.Model Verif.Model.Tree Verif.Model.ConfEdit Verif.Spec Verif.Spec.Conf Verif.Proof
open Verif.Spec.Trees (Forest Within)

/-! Names -/

theorem idx_none {α : Type} [DecidableEq α] {l : List α} {x : α} (h : x ∉ l) : l.idxOf? x = none := List.idxOf?_eq_none_iff.2 h

theorem idx_append {α : Type} [DecidableEq α] {x : α} (r : List α) : ∀ {l : List α}, x ∉ l → (l ++ x :: r).idxOf? x = some l.length
  | [], _ => by simp [List.idxOf?_cons]
  | y :: l, h => by
    simp only [List.mem_cons, not_or] at h
    have : (y == x) = false := by simpa using fun e => h.1 e.symm
    simp [List.idxOf?_cons, this, idx_append r h.2]

theorem splitName_spec {n s e : Bytes} (h : Names n s e) : splitName n = (s, e) := by
  cases h with
  | plain e he => simp only [splitName, idx_none (l := n.reverse) (x := 46) (by simpa using he)]
  | full s e he =>
    have h1 : (s ++ 46 :: e).reverse = e.reverse ++ 46 :: s.reverse := by simp
    have h2 := idx_append s.reverse (l := e.reverse) (x := 46) (by simpa using he)
    simp only [splitName, h1, h2, List.length_reverse, List.length_append, List.length_cons, Prod.mk.injEq]
    have h3 : s.length + (e.length + 1) - 1 - e.length = s.length := by omega
    have h4 : s.length + (e.length + 1) - e.length = s.length + 1 := by omega
    rw [h3, h4]
    constructor
    · simp
    · rw [List.drop_append, List.drop_eq_nil_of_le (by omega)]
      simp

theorem names_exists (n : Bytes) : ∃ s e, Names n s e := by
  by_cases h : 46 ∈ n
  · have h' : 46 ∈ n.reverse := by simpa using h
    obtain ⟨a, b, hab, hna⟩ := List.eq_append_cons_of_mem h'
    have : n = b.reverse ++ 46 :: a.reverse := by
      have := congrArg List.reverse hab
      simpa using this
    exact ⟨b.reverse, a.reverse, this ▸ .full _ _ (by simpa using hna)⟩
  · exact ⟨[], n, .plain n h⟩

theorem assignment_exists (c : Bytes) : ∃ n v, Assignment c n v := by
  by_cases h : 61 ∈ c
  · obtain ⟨a, b, rfl, hna⟩ := List.eq_append_cons_of_mem h
    exact ⟨a, b, .full _ _ hna⟩
  · exact ⟨c, [], .empty c h⟩

theorem setValue_eq {trim : Bytes → Bytes} (ht : Trims trim) {cmd n v : Bytes} (h : Assignment cmd n v) (fuel : Nat) (m : Mem) (c : Conf) :
    setValue trim fuel m c cmd = setEntry trim fuel m c n (trim v) := by
  cases h with
  | empty n hn => simp only [setValue, idx_none hn, ht.1]
  | full n v hn =>
    simp only [setValue, idx_append v hn, List.take_left']
    congr 2
    rw [List.drop_append, List.drop_eq_nil_of_le (by omega)]
    simp

/-! What is updated -/

theorem run_done {α β : Type} {x : Run α} {f : α → Run β} {b : β} (h : bindRun x f = .done b) : ∃ a, x = .done a ∧ f a = .done b := by
  cases x with
  | done a => exact ⟨a, rfl, h⟩
  | panic => simp [bindRun] at h
  | timeout => simp [bindRun] at h

theorem opt_done {α β : Type} {x : Option α} {f : α → Run β} {b : β} (h : orPanic x f = .done b) : ∃ a, x = some a ∧ f a = .done b := by
  cases x with
  | some a => exact ⟨a, rfl, h⟩
  | none => simp [orPanic] at h

/-- A command marks every change. -/
def Marks (m : Mem) (c : Conf) (m' : Mem) (c' : Conf) : Prop := (c.Updated → c'.Updated) ∧ (c'.Updated ∨ m' = m)

theorem Marks.refl (m : Mem) (c : Conf) : Marks m c m c := ⟨id, .inr rfl⟩

theorem Marks.of {m m' : Mem} {c c' : Conf} (h : c'.Updated) : Marks m c m' c' := ⟨fun _ => h, .inl h⟩

theorem Marks.trans {m m' m'' : Mem} {c c' c'' : Conf} (a : Marks m c m' c') (b : Marks m' c' m'' c'') : Marks m c m'' c'' := by
  refine ⟨fun h => b.1 (a.1 h), ?_⟩
  rcases b.2 with h | rfl
  · exact .inl h
  · rcases a.2 with h | rfl
    · exact .inl (b.1 h)
    · exact .inr rfl

theorem removeSection_marks {m m' : Mem} {c c' : Conf} {n : Bytes} (h : removeSection m c n = .done (m', c')) : Marks m c m' c' := by
  unfold removeSection at h
  split at h
  · simp only [Run.done.injEq, Prod.mk.injEq] at h
    obtain ⟨rfl, rfl⟩ := h
    exact .refl ..
  · obtain ⟨h', -, h⟩ := run_done h
    simp only [Run.done.injEq, Prod.mk.injEq] at h
    obtain ⟨rfl, rfl⟩ := h
    exact .of (.inl rfl)

theorem addSection_marks {fuel : Nat} {m m' : Mem} {c c' : Conf} {n : Bytes} (h : addSection fuel m c n = .done (m', c')) : Marks m c m' c' := by
  unfold addSection at h
  split at h
  · simp only [Run.done.injEq, Prod.mk.injEq] at h
    obtain ⟨rfl, rfl⟩ := h
    exact .refl ..
  · obtain ⟨m1, -, h⟩ := run_done h
    obtain ⟨r, hr, h⟩ := run_done h
    simp only [Run.done.injEq, Prod.mk.injEq] at h
    obtain ⟨rfl, rfl⟩ := h
    refine .of (.inl ?_)
    unfold addSectionNode at hr
    obtain ⟨nm, -, hr⟩ := run_done hr
    split at hr
    · obtain rfl := Run.done.inj hr
      rfl
    · obtain rfl := Run.done.inj hr
      rfl

/-- A section is changed. -/
theorem section_marks {m m' : Mem} {c : Conf} {n : Bytes} {s s' : Section} (hs : c.sections n = some s) (h : s'.updated = true ∨ m' = m ∧ s' = s) :
    Marks m c m' { c with sections := setKey c.sections n (some s') } := by
  rcases h with h | ⟨rfl, rfl⟩
  · exact .of (.inr ⟨n, s', by simp [setKey], h⟩)
  · have : setKey c.sections n (some s') = c.sections := by
      funext k
      simp only [setKey]
      split
      · next e => rw [e, hs]
      · rfl
    rw [this]
    exact .refl ..

theorem removeEntry_marks (m : Mem) (c : Conf) (n : Bytes) : Marks m c (removeEntry m c n).1 (removeEntry m c n).2 := by
  simp only [removeEntry]
  split
  · exact .refl ..
  · next s hs =>
    refine section_marks hs ?_
    simp only [Section.removeEntry]
    split
    · exact .inr ⟨rfl, rfl⟩
    · exact .inl rfl

theorem addEntryNode_updated {trim : Bytes → Bytes} {fuel : Nat} {h h' : Heap} {s s' : Section} {x : Nat}
    (hr : s.addEntryNode trim fuel h x = .done (h', s')) (hu : s.updated = true) : s'.updated = true := by
  unfold Section.addEntryNode at hr
  obtain ⟨nm, -, hr⟩ := run_done hr
  dsimp only at hr
  cases hs : s.entries nm with
  | none =>
    rw [hs] at hr
    dsimp only at hr
    obtain ⟨v, -, hr⟩ := run_done hr
    split at hr
    · simp only [Run.done.injEq, Prod.mk.injEq] at hr
      obtain ⟨-, rfl⟩ := hr
      exact hu
    · obtain ⟨t, -, hr⟩ := run_done hr
      simp only [Run.done.injEq, Prod.mk.injEq] at hr
      obtain ⟨-, rfl⟩ := hr
      exact hu
  | some e =>
    rw [hs] at hr
    dsimp only at hr
    obtain ⟨v, -, hr⟩ := run_done hr
    split at hr
    · simp only [Run.done.injEq, Prod.mk.injEq] at hr
      obtain ⟨-, rfl⟩ := hr
      rfl
    · obtain ⟨t, -, hr⟩ := run_done hr
      simp only [Run.done.injEq, Prod.mk.injEq] at hr
      obtain ⟨-, rfl⟩ := hr
      rfl

theorem sectionSet_updated {trim : Bytes → Bytes} {fuel : Nat} {m m' : Mem} {s s' : Section} {n v : Bytes}
    (hr : s.setEntry trim fuel m n v = .done (m', s')) : s'.updated = true ∨ m' = m ∧ s' = s := by
  unfold Section.setEntry at hr
  split at hr
  · split at hr
    · simp only [Run.done.injEq, Prod.mk.injEq] at hr
      exact .inr ⟨hr.1.symm, hr.2.symm⟩
    · dsimp only at hr
      obtain ⟨h', -, hr⟩ := run_done hr
      simp only [Run.done.injEq, Prod.mk.injEq] at hr
      obtain ⟨-, rfl⟩ := hr
      exact .inl rfl
  · dsimp only at hr
    obtain ⟨snode, -, hr⟩ := opt_done hr
    obtain ⟨last, -, hr⟩ := run_done hr
    obtain ⟨r, hr', hr⟩ := run_done hr
    simp only [Run.done.injEq, Prod.mk.injEq] at hr
    obtain ⟨-, rfl⟩ := hr
    exact .inl (addEntryNode_updated hr' rfl)

theorem setEntry_marks {trim : Bytes → Bytes} {fuel : Nat} {m m' : Mem} {c c' : Conf} {n v : Bytes} (h : setEntry trim fuel m c n v = .done (m', c')) :
    Marks m c m' c' := by
  simp only [setEntry] at h
  obtain ⟨r, hr, h⟩ := run_done h
  obtain ⟨s, hs, h⟩ := opt_done h
  obtain ⟨x, hx, h⟩ := run_done h
  simp only [Run.done.injEq, Prod.mk.injEq] at h
  obtain ⟨rfl, rfl⟩ := h
  exact (addSection_marks hr).trans (section_marks hs (sectionSet_updated hx))

/-! What breaks the program -/

theorem map_last {α β : Type} {f : α → β} {l : List α} {a : List β} {y : β} (h : l.map f = a ++ [y]) : ∃ A x, l = A ++ [x] ∧ f x = y := by
  obtain ⟨A, B, rfl, -, h2⟩ := List.map_eq_append_iff.1 h
  obtain ⟨x, B', rfl, h3, h4⟩ := List.map_eq_cons_iff.1 h2
  rw [List.map_eq_nil_iff] at h4
  subst h4
  exact ⟨A, x, rfl, h3⟩

theorem addSection_breaks {trim : Bytes → Bytes} {m : Mem} {F : Forest} {c : Conf} (i : Inv trim m F c) {s : Bytes}
    (h : (Edit.addSection s).Breaks (docAt (labels m.heap) F c.root)) (fuel : Nat) : addSection fuel m c s = .panic := by
  obtain ⟨hne, hno, a, ty, hd⟩ := h
  have hs : c.sections s = none := by
    by_contra h
    obtain ⟨sec, hsec⟩ := Option.ne_none_iff_exists'.1 h
    exact hno ((i.has s).2 ⟨sec, hsec⟩)
  have hp : addNamed m c.root s = .panic := by
    rw [addNamed_eq]
    obtain ⟨F4, i4, d4, -⟩ := header_spec i s rfl
    generalize withHeader m s = m4 at *
    rw [hd] at d4
    obtain ⟨A, x, he, hx⟩ := map_last d4
    have hi : (m4.heap x).isNode = true := by
      by_contra hi
      have : (labels m4.heap x).isNode = false := Bool.eq_false_iff.2 hi
      simp [itemAt, this] at hx
    rw [itemAt_node (by exact hi)] at hx
    simp only [Item.node.injEq, List.map_eq_nil_iff] at hx
    rw [closeLast, i4.ok.rep.last c.root i4.flat.1, he]
    simp only [List.getLast?_append, List.getLast?_singleton, Option.some_or, hi, if_true]
    rw [i4.ok.rep.last x hi, hx.2]
    rfl
  simp only [addSection, hs, hne, if_false, hp, bindRun]

theorem setEntry_breaks {trim : Bytes → Bytes} {m : Mem} {F : Forest} {c : Conf} (i : Inv trim m F c) {n s e v : Bytes} (hn : splitName n = (s, e))
    (h : (Edit.set s e v).Breaks (docAt (labels m.heap) F c.root)) (fuel : Nat) : setEntry trim fuel m c n v = .panic := by
  simp only [setEntry, hn, addSection_breaks i (s := s) h fuel, bindRun]

theorem removeSection_breaks {trim : Bytes → Bytes} {m : Mem} {F : Forest} {c : Conf} (i : Inv trim m F c) {s : Bytes}
    (h : (Edit.removeSection s).Breaks (docAt (labels m.heap) F c.root)) : removeSection m c s = .panic := by
  obtain ⟨a, b, t, it, hd, hn⟩ := h
  obtain ⟨A, L, he, -, h2⟩ := List.map_eq_append_iff.1 hd
  obtain ⟨p, L', rfl, hp, h3⟩ := List.map_eq_cons_iff.1 h2
  obtain ⟨σ, B, rfl, rfl, -⟩ := List.map_eq_cons_iff.1 h3
  have e : F c.root = (A ++ [p]) ++ σ :: B := by simp [he]
  obtain ⟨sec, hs, hσ⟩ := i.index.all s σ ⟨by simp [he], hn⟩
  have hi : (m.heap p).isNode = false := by
    by_contra hi
    have : (labels m.heap p).isNode = true := by simpa [labels] using hi
    simp [itemAt, this] at hp
  have hprev := (i.ok.split e).1
  simp only [List.getLast?_append, List.getLast?_singleton, Option.some_or] at hprev
  simp only [removeSection, hs, hσ, removeNodes, hprev, hi, Bool.false_eq_true, if_false, bindRun]

/-! Sequences of commands -/

theorem rep_unique {h : Heap} {F F' : Forest} (r : Rep h F) (r' : Rep h F') : F' = F := by
  funext n
  obtain ⟨N1, h1⟩ := children_spec r n
  obtain ⟨N2, h2⟩ := children_spec r' n
  have := (h1 (N1 + N2) (by omega)).symm.trans (h2 (N1 + N2) (by omega))
  exact (Run.done.inj this).symm

/-- What becomes of a configuration. -/
def Outcome (trim : Bytes → Bytes) (m : Mem) (F : Forest) (c : Conf) (es : List Edit) (run : Nat → Run (Mem × Conf)) : Prop :=
  (∃ es₁ x es₂ d₁, es = es₁ ++ x :: es₂ ∧ Edits trim (docAt (labels m.heap) F c.root) es₁ d₁ ∧ x.Breaks d₁ ∧ ∃ N, ∀ fuel ≥ N, run fuel = .panic) ∨
  ∃ m' c' F', Ev run (m', c') ∧ Inv trim m' F' c' ∧ c'.root = c.root ∧ Marks m c m' c' ∧
    Edits trim (docAt (labels m.heap) F c.root) es (docAt (labels m'.heap) F' c.root) ∧
    ∀ s e, Conf.get trim c' s e = es.foldl (fun f x => x.apply trim f) (Conf.get trim c) s e

theorem edits_append {trim : Bytes → Bytes} {es₂ : List Edit} {d'' : Doc} : ∀ {es₁ : List Edit} {d d' : Doc}, Edits trim d es₁ d' → Edits trim d' es₂ d'' →
    Edits trim d (es₁ ++ es₂) d''
  | _, _, _, .nil _, h => h
  | _, _, _, .cons n a b, h => .cons n a (edits_append b h)

theorem apply_congr {trim : Bytes → Bytes} {f g : Bytes → Bytes → Option Bytes} (h : ∀ s e, f s e = g s e) (es : List Edit) :
    es.foldl (fun f x => x.apply trim f) f = es.foldl (fun f x => x.apply trim f) g := by
  have : f = g := by funext s e; exact h s e
  rw [this]

theorem Outcome.bind {trim : Bytes → Bytes} {m : Mem} {F : Forest} {c : Conf} {es₁ es₂ : List Edit} {run₁ : Nat → Run (Mem × Conf)}
    {run₂ : Nat → Mem → Conf → Run (Mem × Conf)} (h1 : Outcome trim m F c es₁ run₁)
    (h2 : ∀ m' F' c', Inv trim m' F' c' → Outcome trim m' F' c' es₂ fun fuel => run₂ fuel m' c') :
    Outcome trim m F c (es₁ ++ es₂) fun fuel => bindRun (run₁ fuel) fun r => run₂ fuel r.1 r.2 := by
  rcases h1 with ⟨a, x, b, d₁, rfl, hE, hB, N, hN⟩ | ⟨m', c', F', ⟨N1, hN1⟩, i', hr, hm, hE, hg⟩
  · exact .inl ⟨a, x, b ++ es₂, d₁, by simp, hE, hB, N, fun fuel hf => by dsimp only; rw [hN fuel hf]; rfl⟩
  · rcases h2 m' F' c' i' with ⟨a, x, b, d₁, rfl, hE', hB, N, hN⟩ | ⟨m2, c2, F2, ⟨N2, hN2⟩, i2, hr2, hm2, hE2, hg2⟩
    · refine .inl ⟨es₁ ++ a, x, b, d₁, by simp, ?_, hB, N1 + N, fun fuel hf => ?_⟩
      · rw [hr] at hE'
        exact edits_append hE hE'
      · dsimp only
        rw [hN1 fuel (by omega)]
        exact hN fuel (by omega)
    · refine .inr ⟨m2, c2, F2, ⟨N1 + N2, fun fuel hf => ?_⟩, i2, hr2.trans hr, hm.trans hm2, ?_, fun s e => ?_⟩
      · dsimp only
        rw [hN1 fuel (by omega)]
        exact hN2 fuel (by omega)
      · rw [hr] at hE2
        exact edits_append hE hE2
      · rw [hg2, List.foldl_append, apply_congr hg]

theorem Outcome.one {trim : Bytes → Bytes} {m : Mem} {F : Forest} {c : Conf} {x : Edit} {run : Nat → Run (Mem × Conf)}
    (hm : ∀ fuel m' c', run fuel = .done (m', c') → Marks m c m' c')
    (hb : x.Breaks (docAt (labels m.heap) F c.root) → ∀ fuel, run fuel = .panic)
    (h : x.Breaks (docAt (labels m.heap) F c.root) ∧ (∀ fuel, run fuel = .panic) ∨
      ∃ m' c' F', Ev run (m', c') ∧ Inv trim m' F' c' ∧ c'.root = c.root ∧ x.Does trim (docAt (labels m.heap) F c.root) (docAt (labels m'.heap) F' c.root) ∧
        ∀ s' e', Conf.get trim c' s' e' = x.apply trim (Conf.get trim c) s' e') : Outcome trim m F c [x] run := by
  rcases h with ⟨hB, hN⟩ | ⟨m', c', F', ⟨N, hN⟩, i', hr, hE, hg⟩
  · exact .inl ⟨[], x, [], _, rfl, .nil _, hB, 0, fun fuel _ => hN fuel⟩
  · exact .inr ⟨m', c', F', ⟨N, hN⟩, i', hr, hm N _ _ (hN N (Nat.le_refl _)), .cons (fun h => by
      have := (hb h N).symm.trans (hN N (Nat.le_refl _))
      simp at this) hE (.nil _), hg⟩

theorem Outcome.nil {trim : Bytes → Bytes} {m : Mem} {F : Forest} {c : Conf} (i : Inv trim m F c) : Outcome trim m F c [] fun _ => .done (m, c) :=
  .inr ⟨m, c, F, ev_done _, i, rfl, .refl .., .nil _, fun _ _ => rfl⟩

theorem runAll_spec {trim : Bytes → Bytes} {handler : Nat → Mem → Conf → Bytes → Run (Mem × Conf)} {R : Bytes → Edit → Prop}
    (hstep : ∀ m F c, Inv trim m F c → ∀ x e, R x e → Outcome trim m F c [e] fun fuel => handler fuel m c x) :
    ∀ {xs : List Bytes} {es : List Edit}, List.Forall₂ R xs es → ∀ m F c, Inv trim m F c → Outcome trim m F c es fun fuel => runAll (handler fuel) xs m c
  | _, _, .nil, m, F, c, i => .nil i
  | _, _, .cons (l₁ := xs) (l₂ := es) h t, m, F, c, i =>
    (hstep m F c i _ _ h).bind (run₂ := fun fuel m c => runAll (handler fuel) xs m c) fun m' F' c' i' => runAll_spec hstep t m' F' c' i'

theorem forall₂_map {α β : Type} (f : α → β) : ∀ l : List α, List.Forall₂ (fun x y => y = f x) l (l.map f)
  | [] => .nil
  | _ :: l => .cons rfl (forall₂_map f l)

theorem mean_exists (trim : Bytes → Bytes) (k : Commands) : ∃ es, k.Mean trim es := by
  have h1 : ∀ l : List Bytes, ∃ rs, List.Forall₂ (fun c x => ∃ s e, Names c s e ∧ x = Edit.remove s e) l rs := by
    intro l
    induction l with
    | nil => exact ⟨[], .nil⟩
    | cons c l ih =>
      obtain ⟨rs, h⟩ := ih
      obtain ⟨s, e, hn⟩ := names_exists c
      exact ⟨_, .cons ⟨s, e, hn, rfl⟩ h⟩
  have h2 : ∀ l : List Bytes, ∃ rs, List.Forall₂ (fun c x => ∃ n v s e, Assignment c n v ∧ Names n s e ∧ x = Edit.set s e (trim v)) l rs := by
    intro l
    induction l with
    | nil => exact ⟨[], .nil⟩
    | cons c l ih =>
      obtain ⟨rs, h⟩ := ih
      obtain ⟨n, v, ha⟩ := assignment_exists c
      obtain ⟨s, e, hn⟩ := names_exists n
      exact ⟨_, .cons ⟨n, v, s, e, ha, hn, rfl⟩ h⟩
  obtain ⟨rs, h1⟩ := h1 k.removeValues
  obtain ⟨ss, h2⟩ := h2 k.setValues
  exact ⟨_, rs, ss, h1, h2, rfl⟩

/-- All commands. -/
theorem commands_spec {trim : Bytes → Bytes} (ht : Trims trim) {k : Commands} {es : List Edit} (hk : k.Mean trim es) {m : Mem} {F : Forest} {c : Conf}
    (i : Inv trim m F c) : Outcome trim m F c es fun fuel =>
      bindRun (runAll removeSection k.removeSections m c) fun r =>
      bindRun (runAll (addSection fuel) k.addSections r.1 r.2) fun r =>
      bindRun (runAll (fun m c x => .done (removeEntry m c x)) k.removeValues r.1 r.2) fun r =>
      runAll (setValue trim fuel) k.setValues r.1 r.2 := by
  obtain ⟨rs, ss, hr, hs, rfl⟩ := hk
  rw [List.append_assoc, List.append_assoc]
  refine Outcome.bind (run₁ := fun _ => runAll removeSection k.removeSections m c)
    (run₂ := fun fuel m c => bindRun (runAll (addSection fuel) k.addSections m c) fun r =>
      bindRun (runAll (fun m c x => .done (removeEntry m c x)) k.removeValues r.1 r.2) fun r => runAll (setValue trim fuel) k.setValues r.1 r.2) ?_ ?_
  · refine runAll_spec (handler := fun _ => removeSection) (fun m F c i x e h => ?_) (forall₂_map Edit.removeSection _) m F c i
    subst h
    refine .one (fun fuel m' c' h => removeSection_marks h) (fun h _ => removeSection_breaks i h) ?_
    rcases removeSection_spec i x with ⟨h1, h2⟩ | ⟨m', c', F', h1, h2⟩
    · exact .inl ⟨h1, fun _ => h2⟩
    · exact .inr ⟨m', c', F', ⟨0, fun _ _ => h1⟩, h2⟩
  intro m F c i
  refine Outcome.bind (run₁ := fun fuel => runAll (addSection fuel) k.addSections m c)
    (run₂ := fun fuel m c => bindRun (runAll (fun m c x => .done (removeEntry m c x)) k.removeValues m c) fun r =>
      runAll (setValue trim fuel) k.setValues r.1 r.2) ?_ ?_
  · refine runAll_spec (handler := addSection) (fun m F c i x e h => ?_) (forall₂_map Edit.addSection _) m F c i
    subst h
    exact .one (fun fuel m' c' h => addSection_marks h) (fun h => addSection_breaks i h) (open_spec i x)
  intro m F c i
  refine Outcome.bind (run₁ := fun _ => runAll (fun m c x => .done (removeEntry m c x)) k.removeValues m c)
    (run₂ := fun fuel m c => runAll (setValue trim fuel) k.setValues m c) ?_ ?_
  · refine runAll_spec (handler := fun _ m c x => .done (removeEntry m c x)) (fun m F c i x e h => ?_) hr m F c i
    obtain ⟨s, e, hn, rfl⟩ := h
    obtain ⟨F', h1, h2, h3⟩ := remove_spec ht i x s e (splitName_spec hn)
    refine .one (fun fuel m' c' h => ?_) (fun h => h.elim) (.inr ⟨_, _, F', ⟨0, fun _ _ => rfl⟩, h1, h2, h3⟩)
    have := Run.done.inj h
    have h1 := removeEntry_marks m c x
    rw [this] at h1
    exact h1
  intro m F c i
  refine runAll_spec (handler := setValue trim) (fun m F c i x e h => ?_) hs m F c i
  obtain ⟨n, v, s, e, ha, hn, rfl⟩ := h
  have he : (fun fuel => setValue trim fuel m c x) = fun fuel => setEntry trim fuel m c n (trim v) := by
    funext fuel
    exact setValue_eq ht ha fuel m c
  rw [he]
  exact .one (fun fuel m' c' h => setEntry_marks h) (fun h fuel => setEntry_breaks i (splitName_spec hn) h fuel) (set_spec ht i n s e (trim v) (splitName_spec hn))

/-! Results are free from repetitions -/

theorem nodup_filterMap {α β : Type} {f : α → Option β} {l : List α} (hl : l.Nodup) (h : ∀ a ∈ l, ∀ a' ∈ l, ∀ b, f a = some b → f a' = some b → a = a') :
    (l.filterMap f).Nodup := by
  rw [List.Nodup, List.pairwise_filterMap]
  refine List.Pairwise.imp_of_mem (fun {a a'} ha ha' hne b hb b' hb' e => ?_) hl
  subst e
  exact hne (h a ha a' ha' b hb hb')

theorem Inv.one_section {trim : Bytes → Bytes} {m : Mem} {F : Forest} {c : Conf} (i : Inv trim m F c) {s : Bytes} {σ σ' : Nat} (h : Sec m.heap F c.root s σ)
    (h' : Sec m.heap F c.root s σ') : σ = σ' := by
  obtain ⟨sec, h1, h2⟩ := i.index.all s σ h
  obtain ⟨sec', h3, h4⟩ := i.index.all s σ' h'
  rw [h1] at h3
  obtain rfl := Option.some.inj h3
  rw [h2] at h4
  simpa using h4

theorem Inv.separate {trim : Bytes → Bytes} {m : Mem} {F : Forest} {c : Conf} (i : Inv trim m F c) : (docAt (labels m.heap) F c.root).Separate := by
  simp only [Doc.Separate, docAt, List.filterMap_map]
  exact nodup_filterMap (i.ok.rep.nodup _) fun σ hσ σ' hσ' s h h' => i.one_section ⟨hσ, h⟩ ⟨hσ', h'⟩

theorem Inv.distinct {trim : Bytes → Bytes} {m : Mem} {F : Forest} {c : Conf} (i : Inv trim m F c) : (docAt (labels m.heap) F c.root).Distinct := by
  have hname : ∀ (it : Item) (x : Bytes × Bytes × Bytes), x ∈ it.entries id → it.name = some x.1 := by
    rintro (t | ⟨ty, ps⟩) x hx
    · simp [Item.entries] at hx
    · simp only [Item.entries, List.mem_filterMap] at hx
      obtain ⟨p, -, h⟩ := hx
      split at h
      · next h1 _ => obtain rfl := Option.some.inj h; exact h1
      · simp at h
  simp only [Doc.Distinct, Doc.entries, List.map_flatMap, docAt]
  refine List.nodup_flatMap.2 ⟨fun it hit => ?_, ?_⟩
  · obtain ⟨σ, hσ, rfl⟩ := List.mem_map.1 hit
    cases hn : (itemAt (labels m.heap) F σ).name with
    | none =>
      have : (itemAt (labels m.heap) F σ).entries id = [] := by
        refine List.eq_nil_iff_forall_not_mem.2 fun x hx => ?_
        simp [hname _ x hx] at hn
      simp [this]
    | some s =>
      have hit := (sec_node (h := m.heap) (F := F) (root := c.root) ⟨hσ, hn⟩).2
      rw [hit] at hn ⊢
      simp only [Item.entries, hn]
      rw [List.map_filterMap, List.filterMap_congr (g := fun p => p.key.map fun e => (s, e)) fun p _ => by cases p.key <;> rfl, List.filterMap_map]
      refine nodup_filterMap (i.ok.rep.nodup _) fun x hx x' hx' b h h' => ?_
      simp only [Function.comp, Option.map_eq_some_iff] at h h'
      obtain ⟨e, he, rfl⟩ := h
      obtain ⟨e', he', h⟩ := h'
      simp only [Prod.mk.injEq, true_and] at h
      subst h
      rw [← hit] at hn
      obtain ⟨sec, h1, -⟩ := i.index.all s σ ⟨hσ, hn⟩
      obtain ⟨ent, h2, h3⟩ := i.index.each s σ e' x sec ⟨⟨hσ, hn⟩, hx, he⟩ h1
      obtain ⟨ent', h4, h5⟩ := i.index.each s σ e' x' sec ⟨⟨hσ, hn⟩, hx', he'⟩ h1
      rw [h2] at h4
      obtain rfl := Option.some.inj h4
      rw [← h3, ← h5]
  · rw [List.pairwise_map]
    refine List.Pairwise.imp_of_mem (fun {σ σ'} hσ hσ' hne x hx hx' => ?_) (i.ok.rep.nodup c.root)
    obtain ⟨y, hy, rfl⟩ := List.mem_map.1 hx
    obtain ⟨y', hy', e⟩ := List.mem_map.1 hx'
    simp only [Prod.mk.injEq] at e
    have h1 := hname _ _ hy
    have h2 := hname _ _ hy'
    rw [e.1] at h2
    exact hne (i.one_section ⟨hσ, h1⟩ ⟨hσ', h2⟩)

end Verif.Proof.ConfTree
