/-
Hook layer templates.
-/
import Verif.Spec.Layers
import Mathlib.Data.List.Nodup
import Mathlib.Algebra.Group.Even
import Mathlib.Algebra.Order.Ring.Nat

namespace Verif.Proof

open Verif.Model Verif.Spec.Layers

theorem argumentsOf_cons (name : String) (c : LayerCommand) (cs : List LayerCommand) :
    argumentsOf name (c :: cs) = (if c.command = bytesOf name then c.arguments else []) ++ argumentsOf name cs := by
  simp only [argumentsOf, List.filter_cons]
  split <;> simp_all

theorem lookup_none {α β : Type} [BEq α] [LawfulBEq α] (l : List (α × β)) (a : α) : l.lookup a = none ↔ a ∉ l.map (·.1) := by
  induction l with
  | nil => simp
  | cons p l ih =>
    obtain ⟨x, y⟩ := p
    rw [List.lookup_cons]
    by_cases h : a = x
    · subst h; simp
    · rw [show (a == x) = false by simpa using h]; simp [ih, h]

theorem convertPairs_ok (args : List (List Nat)) (r r' : List (List Nat × List Nat)) (hr : (r.map (·.1)).Nodup) :
    convertPairs args r = .ok r' ↔ ((r ++ pairs args).map (·.1)).Nodup ∧ r' = r ++ pairs args := by
  induction args using pairs.induct generalizing r with
  | case1 a b l ih =>
    simp only [convertPairs, pairs]
    cases hl : r.lookup a with
    | some x =>
      simp only [reduceCtorEq, false_iff, not_and]
      intro h
      exfalso
      have : a ∈ r.map (·.1) := by
        by_contra hn
        rw [(lookup_none r a).mpr hn] at hl; simp at hl
      rw [List.map_append, List.nodup_append] at h
      exact h.2.2 a this a (by simp) rfl
    | none =>
      have hn := (lookup_none r a).mp hl
      rw [ih (r ++ [(a, b)]) (by
        rw [List.map_append, List.nodup_append]
        refine ⟨hr, by simp, ?_⟩
        intro x hx y hy hxy
        simp at hy
        subst hy; subst hxy
        exact hn hx)]
      simp
  | case2 l h =>
    match l, h with
    | [], _ => simp [convertPairs, pairs, hr, eq_comm]
    | [a], _ => simp [convertPairs, pairs, hr, eq_comm]
    | a :: b :: l, h => exact absurd rfl (h a b l)

theorem pairs_append {α : Type} (a b : List α) (h : Even a.length) : pairs (a ++ b) = pairs a ++ pairs b := by
  induction a using pairs.induct with
  | case1 x y l ih =>
    simp only [List.cons_append, pairs]
    rw [ih (by simpa [Nat.even_add_one] using h)]
  | case2 l hl =>
    match l, hl with
    | [], _ => simp [pairs]
    | [x], _ => simp at h
    | x :: y :: l, hl => exact absurd rfl (hl x y l)

theorem single_cons (n : List Nat) (l : List (List Nat)) : Single (n :: l) ↔ (l ≠ [] → n = []) ∧ Single l := by
  cases l with
  | nil => simp [Single]
  | cons x l => simp [Single]

theorem getLastD_cons' {α : Type} (a d : α) (l : List α) : (a :: l).getLastD d = l.getLastD a := by
  cases l with
  | nil => simp
  | cons b l => rw [List.getLastD_eq_getLast?, List.getLastD_eq_getLast?, List.getLast?_cons_cons, List.getLast?_cons]; rfl

theorem kinds_distinct : bytesOf "input-type" ≠ bytesOf "output-type" ∧ bytesOf "input-type" ≠ bytesOf "convert" ∧
    bytesOf "input-type" ≠ bytesOf "save-position" ∧ bytesOf "output-type" ≠ bytesOf "convert" ∧
    bytesOf "output-type" ≠ bytesOf "save-position" ∧ bytesOf "convert" ≠ bytesOf "save-position" := by decide +kernel

/-- One command. -/
theorem convertCommand_ok (g : Grammar) (c : LayerCommand) (v v' : ConvertVars) (hr : (v.replaces.map (·.1)).Nodup) :
    convertCommand g v c = .ok v' ↔
      ConvertCommandOk g c ∧ (c.command = bytesOf "input-type" → v.inputTypeName = []) ∧
      (c.command = bytesOf "output-type" → v.outputTypeName = []) ∧
      ((v.replaces ++ conversions [c]).map (·.1)).Nodup ∧
      v' = {
        inputTypeName := (argumentsOf "input-type" [c]).getLastD v.inputTypeName
        outputTypeName := (argumentsOf "output-type" [c]).getLastD v.outputTypeName
        replaces := v.replaces ++ conversions [c]
        savePosition := v.savePosition || decide (c.command = bytesOf "save-position")
        gotReplaces := v.gotReplaces || decide (c.command = bytesOf "convert") } := by
  obtain ⟨d1, d2, d3, d4, d5, d6⟩ := kinds_distinct
  obtain ⟨name, args⟩ := c
  have e0 : ∀ n, argumentsOf n [] = [] := fun n => rfl
  simp only [convertCommand, ConvertCommandOk, conversions, argumentsOf_cons, e0, List.append_nil]
  generalize bytesOf "input-type" = bi at *
  generalize bytesOf "output-type" = bo at *
  generalize bytesOf "convert" = bc at *
  generalize bytesOf "save-position" = bs at *
  by_cases k1 : name = bi
  · subst k1
    simp only [d1, d2, d3, if_true, if_false, true_or, or_false, false_and, true_and, decide_false, Bool.or_false, pairs,
      List.append_nil, hr, forall_const, false_or, List.getLastD_nil, false_imp_iff]
    match args with
    | [] => simp
    | [a] =>
      cases hn : g.tokenName a with
      | none => simp [hn]
      | some k =>
        by_cases hv : v.inputTypeName = []
        · simp [hv, hn, eq_comm]
        · simp [hv, hn]
    | a :: b :: l => simp
  by_cases k2 : name = bo
  · subst k2
    simp only [k1, d4, d5, if_true, if_false, or_true, or_false, false_and, true_and, decide_false, Bool.or_false, pairs,
      List.append_nil, hr, forall_const, false_or, List.getLastD_nil, false_imp_iff]
    match args with
    | [] => simp
    | [a] =>
      cases hn : g.tokenName a with
      | none => simp [hn]
      | some k =>
        by_cases hv : v.outputTypeName = []
        · simp [hv, hn, eq_comm]
        · simp [hv, hn]
    | a :: b :: l => simp
  by_cases k3 : name = bc
  · subst k3
    simp only [k1, k2, d6, if_true, if_false, or_false, false_and, true_and, decide_false, Bool.or_false, false_or,
      List.getLastD_nil, false_imp_iff, decide_true, Bool.or_true]
    by_cases he : args.length = 0 ∨ args.length % 2 ≠ 0
    · rw [if_pos he]
      simp only [reduceCtorEq, false_iff]
      rintro ⟨⟨h1, h2⟩, -⟩
      rcases he with he | he
      · exact h1 (List.eq_nil_of_length_eq_zero he)
      · rw [Nat.even_iff] at h2; omega
    · rw [if_neg he]
      push Not at he
      have h1 : args ≠ [] := fun h => he.1 (by rw [h]; rfl)
      have h2 : Even args.length := Nat.even_iff.mpr he.2
      simp only [h1, h2, ne_eq, not_false_eq_true, and_self, true_and]
      have := convertPairs_ok args v.replaces
      cases hp : convertPairs args v.replaces with
      | error e =>
        simp only [reduceCtorEq, false_iff]
        rintro ⟨h3, -⟩
        have := (this (v.replaces ++ pairs args) hr).mpr ⟨h3, rfl⟩
        rw [hp] at this; simp at this
      | ok r =>
        obtain ⟨h3, rfl⟩ := (this r hr).mp hp
        simp only [Except.ok.injEq, h3, true_and]
        exact eq_comm
  by_cases k4 : name = bs
  · subst k4
    simp [k1, k2, k3, hr, pairs, eq_comm]
  · simp [k1, k2, k3, k4]

theorem conversions_cons (g : Grammar) (c : LayerCommand) (cs : List LayerCommand) (h : ConvertCommandOk g c) :
    conversions (c :: cs) = conversions [c] ++ conversions cs := by
  have e0 : argumentsOf "convert" [] = [] := rfl
  simp only [conversions, argumentsOf_cons, e0, List.append_nil]
  split
  · next hc =>
    refine pairs_append _ _ ?_
    obtain ⟨d1, d2, d3, d4, d5, d6⟩ := kinds_distinct
    rcases h with ⟨h | h, -⟩ | ⟨-, -, h⟩ | h
    · exact absurd (h.symm.trans hc) d2
    · exact absurd (h.symm.trans hc) d4
    · exact h
    · exact absurd (hc.symm.trans h) d6
  · simp [pairs]

theorem args_single (name : String) (c : LayerCommand) (cs : List LayerCommand) :
    argumentsOf name (c :: cs) = argumentsOf name [c] ++ argumentsOf name cs := by
  simp [argumentsOf_cons, show argumentsOf name [] = [] from rfl]

theorem getLastD_append' {α : Type} (a b : List α) (d : α) : (a ++ b).getLastD d = b.getLastD (a.getLastD d) := by
  induction a generalizing d with
  | nil => simp
  | cons x a ih => rw [List.cons_append, getLastD_cons', getLastD_cons', ih]

theorem single_step (n : List Nat) (a b : List (List Nat)) (ha : a.length ≤ 1) :
    Single (n :: (a ++ b)) ↔ (a ≠ [] → n = []) ∧ Single (a.getLastD n :: b) := by
  match a, ha with
  | [], _ => simp
  | [x], _ => simp [single_cons]

/-- What the loop over commands does. -/
theorem convertCommands_ok (g : Grammar) (cs : List LayerCommand) (v v' : ConvertVars) (hr : (v.replaces.map (·.1)).Nodup) :
    convertCommands g v cs = .ok v' ↔
      (∀ c ∈ cs, ConvertCommandOk g c) ∧ Single (v.inputTypeName :: argumentsOf "input-type" cs) ∧
      Single (v.outputTypeName :: argumentsOf "output-type" cs) ∧ ((v.replaces ++ conversions cs).map (·.1)).Nodup ∧
      v' = {
        inputTypeName := (argumentsOf "input-type" cs).getLastD v.inputTypeName
        outputTypeName := (argumentsOf "output-type" cs).getLastD v.outputTypeName
        replaces := v.replaces ++ conversions cs
        savePosition := v.savePosition || decide (∃ c ∈ cs, c.command = bytesOf "save-position")
        gotReplaces := v.gotReplaces || decide (∃ c ∈ cs, c.command = bytesOf "convert") } := by
  induction cs generalizing v with
  | nil => simp [convertCommands, argumentsOf, conversions, pairs, Single, hr, eq_comm]
  | cons c cs ih =>
    rw [convertCommands]
    have h1 := convertCommand_ok g c v
    by_cases hok : ConvertCommandOk g c
    · have hin : (argumentsOf "input-type" [c]).length ≤ 1 ∧ (argumentsOf "input-type" [c] ≠ [] ↔ c.command = bytesOf "input-type") ∧
          (argumentsOf "output-type" [c]).length ≤ 1 ∧ (argumentsOf "output-type" [c] ≠ [] ↔ c.command = bytesOf "output-type") := by
        obtain ⟨d1, d2, d3, d4, d5, d6⟩ := kinds_distinct
        have e0 : ∀ n, argumentsOf n [] = [] := fun n => rfl
        simp only [argumentsOf_cons, e0, List.append_nil]
        rcases hok with ⟨h | h, n, hn, -⟩ | ⟨h, -, -⟩ | h
        · simp [h, hn, d1]
        · simp [h, hn, d1.symm]
        · simp [h, d2.symm, d4.symm]
        · simp [h, d3.symm, d5.symm]
      obtain ⟨i1, i2, o1, o2⟩ := hin
      rw [conversions_cons g c cs hok, args_single "input-type", args_single "output-type", single_step _ _ _ i1,
        single_step _ _ _ o1, i2, o2, getLastD_append', getLastD_append']
      cases hc : convertCommand g v c with
      | error e =>
        simp only [reduceCtorEq, false_iff]
        rintro ⟨-, ⟨h3, -⟩, ⟨h4, -⟩, h5, -⟩
        have := (h1 _ hr).mpr ⟨hok, h3, h4, by
          rw [← List.append_assoc, List.map_append, List.nodup_append] at h5
          exact h5.1, rfl⟩
        rw [hc] at this; simp at this
      | ok w =>
        obtain ⟨-, h3, h4, h5, h6⟩ := (h1 w hr).mp hc
        have hwr : w.replaces = v.replaces ++ conversions [c] := by rw [h6]
        rw [ih w (by rw [hwr]; exact h5)]
        subst h6
        have e1 : ∀ n, decide (∃ c' ∈ c :: cs, c'.command = bytesOf n) =
            (decide (c.command = bytesOf n) || decide (∃ c' ∈ cs, c'.command = bytesOf n)) := fun n => by
          rw [← Bool.decide_or]; simp
        rw [e1, e1]
        simp only [List.forall_mem_cons, hok, true_and, and_iff_right h3, and_iff_right h4, List.append_assoc, Bool.or_assoc]
    · have : ∀ w, convertCommand g v c ≠ .ok w := fun w h => hok ((h1 w hr).mp h).1
      cases hc : convertCommand g v c with
      | error e => simp [hok]
      | ok w => exact absurd hc (this w)

end Verif.Proof

namespace Verif.Proof

open Verif.Model Verif.Spec.Layers

theorem lookup_mem {α β : Type} [BEq α] [LawfulBEq α] (l : List (α × β)) (hn : (l.map (·.1)).Nodup) (a : α) (b : β) :
    l.lookup a = some b ↔ (a, b) ∈ l := by
  induction l with
  | nil => simp
  | cons p l ih =>
    obtain ⟨x, y⟩ := p
    simp only [List.map_cons, List.nodup_cons] at hn
    rw [List.lookup_cons]
    by_cases h : a = x
    · subst h
      simp only [BEq.rfl, Option.some.injEq, List.mem_cons, Prod.mk.injEq, true_and]
      constructor
      · intro h; exact .inl h.symm
      · rintro (h | h)
        · exact h.symm
        · exact absurd (List.mem_map_of_mem h) hn.1
    · rw [show (a == x) = false by simpa using h]; simp [ih hn.2, h]

theorem tokenName_any {g : Grammar} {n : List Nat} (h : g.tokenName n = some (-1)) : n = [] := by
  unfold Grammar.tokenName at h
  split at h
  · cases h
  · split at h
    · assumption
    · split at h
      · cases h
      · split at h <;> cases h

theorem convert_names {g : Grammar} {cs : List LayerCommand} (h : ∀ c ∈ cs, ConvertCommandOk g c) (n : List Nat)
    (hn : n ∈ argumentsOf "input-type" cs ∨ n ∈ argumentsOf "output-type" cs) : g.tokenName n ≠ none := by
  obtain ⟨d1, d2, d3, d4, d5, d6⟩ := kinds_distinct
  simp only [argumentsOf, List.mem_flatMap, List.mem_filter, decide_eq_true_eq] at hn
  rcases hn with ⟨c, ⟨hc, hk⟩, hn⟩ | ⟨c, ⟨hc, hk⟩, hn⟩
  · rcases h c hc with ⟨-, m, hm, hm'⟩ | ⟨h, -⟩ | h
    · rw [hm] at hn; simp at hn; rw [hn]; exact hm'
    · exact absurd (hk.symm.trans h) d2
    · exact absurd (hk.symm.trans h) d3
  · rcases h c hc with ⟨-, m, hm, hm'⟩ | ⟨h, -⟩ | h
    · rw [hm] at hn; simp at hn; rw [hn]; exact hm'
    · exact absurd (hk.symm.trans h) d4
    · exact absurd (hk.symm.trans h) d5

theorem getLastD_mem {α : Type} (l : List α) (d : α) : l.getLastD d = d ∨ l.getLastD d ∈ l := by
  induction l generalizing d with
  | nil => simp
  | cons a l ih =>
    rw [getLastD_cons']
    rcases ih a with h | h
    · right; rw [h]; simp
    · right; exact List.mem_cons_of_mem _ h

theorem tokenName_nil (g : Grammar) : g.tokenName [] ≠ none := by
  unfold Grammar.tokenName
  split <;> simp

/-- Names used by a correct configuration are known. -/
theorem convert_last {g : Grammar} {cs : List LayerCommand} (h : ∀ c ∈ cs, ConvertCommandOk g c) :
    g.tokenName ((argumentsOf "input-type" cs).getLastD []) ≠ none ∧
    g.tokenName ((argumentsOf "output-type" cs).getLastD []) ≠ none := by
  constructor
  · rcases getLastD_mem (argumentsOf "input-type" cs) [] with h1 | h1
    · rw [h1]; exact tokenName_nil g
    · exact convert_names h _ (.inl h1)
  · rcases getLastD_mem (argumentsOf "output-type" cs) [] with h1 | h1
    · rw [h1]; exact tokenName_nil g
    · exact convert_names h _ (.inr h1)

/-- What the hook of the "convert" layer returns for a listed text. -/
theorem convertHook_some {η : Type} (o : Option (Int × List Nat)) (v : ConvertVars) (st : η) (tok : Token) (text : List Nat)
    (h : v.replaces.lookup tok.content = some text) :
    ∃ t' : Token, convertHook o v st tok = .ret st false [t'] ∧ t'.content = text ∧
      t'.pos = (if v.savePosition then tok.pos else ⟨none, 0⟩) ∧ t'.type = (o.map (·.1)).getD tok.type := by
  unfold convertHook
  simp only [h]
  cases o with
  | none => exact ⟨_, rfl, rfl, rfl, rfl⟩
  | some o => exact ⟨_, rfl, rfl, rfl, rfl⟩

end Verif.Proof

/-! Layer "restrict" -/

namespace Verif.Proof

open Verif.Model Verif.Spec.Layers

theorem restrictNodes_ok (ns nodes r : List (List Nat)) (hn : nodes.Nodup) :
    restrictNodes ns nodes = .ok r ↔ (nodes ++ ns).Nodup ∧ r = nodes ++ ns := by
  induction ns generalizing nodes with
  | nil => simp [restrictNodes, hn, eq_comm]
  | cons n ns ih =>
    rw [restrictNodes]
    by_cases h : n ∈ nodes
    · rw [if_pos h]
      simp only [reduceCtorEq, false_iff, not_and]
      intro h'
      rw [List.nodup_append] at h'
      exact absurd rfl (h'.2.2 n h n (by simp))
    · rw [if_neg h, ih _ (by
        rw [List.nodup_append]
        refine ⟨hn, by simp, ?_⟩
        intro x hx y hy hxy
        simp at hy
        subst hy; subst hxy
        exact h hx)]
      simp

theorem restrictSpecial_ok (allow : Bool) (ns : List (List Nat)) (s r : List (List Nat × Bool)) (hn : (s.map (·.1)).Nodup) :
    restrictSpecial allow ns s = .ok r ↔
      ((s ++ ns.map (·, allow)).map (·.1)).Nodup ∧ r = s ++ ns.map (·, allow) := by
  induction ns generalizing s with
  | nil => simp [restrictSpecial, hn, eq_comm]
  | cons n ns ih =>
    rw [restrictSpecial]
    cases h : s.lookup n with
    | some b =>
      simp only [reduceCtorEq, false_iff, not_and]
      intro h'
      exfalso
      have : n ∈ s.map (·.1) := by
        by_contra hn
        rw [(lookup_none s n).mpr hn] at h; simp at h
      rw [List.map_append, List.nodup_append] at h'
      exact h'.2.2 n this n (by simp) rfl
    | none =>
      have hm := (lookup_none s n).mp h
      simp only
      rw [ih _ (by
        rw [List.map_append, List.nodup_append]
        refine ⟨hn, by simp, ?_⟩
        intro x hx y hy hxy
        simp at hy
        subst hy; subst hxy
        exact hm hx)]
      simp

theorem restrict_kinds : bytesOf "node" ≠ bytesOf "allow-in" ∧ bytesOf "node" ≠ bytesOf "forbid-in" ∧
    bytesOf "allow-in" ≠ bytesOf "forbid-in" := by decide +kernel

/-- Special nodes of a command. -/
def specialOf (c : LayerCommand) : List (List Nat × Bool) :=
  (argumentsOf "allow-in" [c]).map (·, true) ++ (argumentsOf "forbid-in" [c]).map (·, false)

theorem restrictCommand_ok (c : LayerCommand) (v v' : RestrictVars) (h1 : v.nodes.Nodup) (h2 : (v.special.map (·.1)).Nodup) :
    restrictCommand v c = .ok v' ↔ RestrictCommandOk c ∧ (v.nodes ++ argumentsOf "node" [c]).Nodup ∧
      ((v.special ++ specialOf c).map (·.1)).Nodup ∧
      v' = {
        nodes := v.nodes ++ argumentsOf "node" [c]
        special := v.special ++ specialOf c
        restricted := v.restricted || decide (argumentsOf "forbid-in" [c] ≠ []) } := by
  obtain ⟨d1, d2, d3⟩ := restrict_kinds
  obtain ⟨name, args⟩ := c
  have e0 : ∀ n, argumentsOf n [] = [] := fun n => rfl
  simp only [restrictCommand, RestrictCommandOk, specialOf, argumentsOf_cons, e0, List.append_nil]
  generalize bytesOf "node" = bn at *
  generalize bytesOf "allow-in" = ba at *
  generalize bytesOf "forbid-in" = bf at *
  by_cases ha : args = []
  · subst ha
    simp only [List.length_nil, if_true, ne_eq, not_true_eq_false, and_false, false_and, iff_false]
    split
    · simp
    · split <;> simp
  have hl : args.length ≠ 0 := fun h => ha (List.eq_nil_of_length_eq_zero h)
  simp only [hl, if_false, ne_eq, ha, not_false_eq_true, and_true]
  by_cases k1 : name = bn
  · subst k1
    simp only [d1, d2, if_true, if_false, true_or, true_and, List.map_nil, List.append_nil, h2, not_true_eq_false,
      decide_false, Bool.or_false]
    have := fun r => restrictNodes_ok args v.nodes r h1
    cases hr : restrictNodes args v.nodes with
    | error e =>
      simp only [reduceCtorEq, false_iff]
      rintro ⟨h3, -⟩
      have := (this _).mpr ⟨h3, rfl⟩
      rw [hr] at this; cases this
    | ok r =>
      obtain ⟨h3, rfl⟩ := (this r).mp hr
      simp only [Except.ok.injEq, h3, true_and]
      exact eq_comm
  by_cases k2 : name = ba
  · subst k2
    simp only [k1, d3, if_true, if_false, true_or, or_true, true_and, List.map_nil, List.append_nil, h1, not_true_eq_false,
      decide_false, Bool.or_false, decide_true, Bool.not_true]
    have := fun r => restrictSpecial_ok true args v.special r h2
    cases hr : restrictSpecial true args v.special with
    | error e =>
      simp only [reduceCtorEq, false_iff]
      rintro ⟨h3, -⟩
      have := (this _).mpr ⟨h3, rfl⟩
      rw [hr] at this; cases this
    | ok r =>
      obtain ⟨h3, rfl⟩ := (this r).mp hr
      simp only [Except.ok.injEq, h3, true_and]
      exact eq_comm
  by_cases k3 : name = bf
  · subst k3
    simp only [k1, k2, if_true, if_false, or_true, true_and, List.map_nil, List.append_nil, List.nil_append, h1, ha,
      not_false_eq_true, decide_false, Bool.or_true, decide_true, Bool.not_false]
    have := fun r => restrictSpecial_ok false args v.special r h2
    cases hr : restrictSpecial false args v.special with
    | error e =>
      simp only [reduceCtorEq, false_iff]
      rintro ⟨h3, -⟩
      have := (this _).mpr ⟨h3, rfl⟩
      rw [hr] at this; cases this
    | ok r =>
      obtain ⟨h3, rfl⟩ := (this r).mp hr
      simp only [Except.ok.injEq, h3, true_and]
      exact eq_comm
  · simp [k1, k2, k3]

theorem restrictCommands_ok (cs : List LayerCommand) (v v' : RestrictVars) (h1 : v.nodes.Nodup)
    (h2 : (v.special.map (·.1)).Nodup) :
    restrictCommands v cs = .ok v' ↔ (∀ c ∈ cs, RestrictCommandOk c) ∧ (v.nodes ++ argumentsOf "node" cs).Nodup ∧
      ((v.special ++ cs.flatMap specialOf).map (·.1)).Nodup ∧
      v' = {
        nodes := v.nodes ++ argumentsOf "node" cs
        special := v.special ++ cs.flatMap specialOf
        restricted := v.restricted || decide (argumentsOf "forbid-in" cs ≠ []) } := by
  induction cs generalizing v with
  | nil => simp [restrictCommands, argumentsOf, h1, h2, eq_comm]
  | cons c cs ih =>
    rw [restrictCommands]
    have key := fun w => restrictCommand_ok c v w h1 h2
    rw [args_single "node", args_single "forbid-in", List.flatMap_cons]
    cases hc : restrictCommand v c with
    | error e =>
      simp only [reduceCtorEq, false_iff]
      rintro ⟨h3, h4, h5, -⟩
      rw [← List.append_assoc, List.nodup_append] at h4
      rw [← List.append_assoc, List.map_append, List.nodup_append] at h5
      have := (key _).mpr ⟨h3 c (by simp), h4.1, h5.1, rfl⟩
      rw [hc] at this; cases this
    | ok w =>
      obtain ⟨h3, h4, h5, h6⟩ := (key w).mp hc
      simp only
      rw [ih w (by rw [h6]; exact h4) (by rw [h6]; exact h5)]
      subst h6
      simp only [List.forall_mem_cons, h3, true_and, List.append_assoc, Bool.or_assoc, ne_eq, List.append_eq_nil_iff,
        not_and_or, Bool.decide_or]

theorem special_perm (cs : List LayerCommand) :
    List.Perm (cs.flatMap specialOf) ((argumentsOf "allow-in" cs).map (·, true) ++ (argumentsOf "forbid-in" cs).map (·, false)) := by
  induction cs with
  | nil => simp [argumentsOf]
  | cons c cs ih =>
    rw [args_single "allow-in", args_single "forbid-in", List.flatMap_cons]
    refine (List.Perm.append_left _ ih).trans ?_
    simp only [specialOf, List.map_append, List.append_assoc]
    refine List.Perm.append_left _ ?_
    rw [← List.append_assoc, ← List.append_assoc]
    exact List.Perm.append_right _ List.perm_append_comm

theorem special_keys (cs : List LayerCommand) :
    ((cs.flatMap specialOf).map (·.1)).Nodup ↔ (argumentsOf "allow-in" cs ++ argumentsOf "forbid-in" cs).Nodup := by
  rw [((special_perm cs).map (·.1)).nodup_iff]
  simp [List.map_append, Function.comp_def]

theorem special_lookup {cs : List LayerCommand} (h : ((cs.flatMap specialOf).map (·.1)).Nodup) (n : List Nat) :
    ((cs.flatMap specialOf).lookup n = some true ↔ n ∈ argumentsOf "allow-in" cs) ∧
    ((cs.flatMap specialOf).lookup n = some false ↔ n ∈ argumentsOf "forbid-in" cs) := by
  rw [lookup_mem _ h, lookup_mem _ h, (special_perm cs).mem_iff, (special_perm cs).mem_iff]
  simp

theorem restrictHook_error {cs : List LayerCommand} (h : ((cs.flatMap specialOf).map (·.1)).Nodup) (stack : List (List Nat)) :
    (restrictHook (cs.flatMap specialOf) stack = .error .wrongToken ↔ Forbidden cs stack) ∧
    (restrictHook (cs.flatMap specialOf) stack = .ok () ↔ ¬ Forbidden cs stack) := by
  induction stack with
  | nil =>
    have : ¬ Forbidden cs [] := by rintro ⟨near, a, far, h, -⟩; simp at h
    simp [restrictHook, this]
  | cons a stack ih =>
    obtain ⟨l1, l2⟩ := special_lookup h a
    rw [restrictHook]
    cases hl : (cs.flatMap specialOf).lookup a with
    | none =>
      rw [hl] at l1 l2
      have h1 : a ∉ argumentsOf "allow-in" cs := fun h => by simpa using l1.mpr h
      have h2 : a ∉ argumentsOf "forbid-in" cs := fun h => by simpa using l2.mpr h
      have e : Forbidden cs (a :: stack) ↔ Forbidden cs stack := by
        constructor
        · rintro ⟨near, b, far, e1, e2, e3⟩
          cases near with
          | nil => simp at e1; obtain ⟨rfl, rfl⟩ := e1; exact absurd e2 h2
          | cons c near =>
            simp at e1; obtain ⟨rfl, rfl⟩ := e1
            exact ⟨near, b, far, rfl, e2, fun n hn => e3 n (by simp [hn])⟩
        · rintro ⟨near, b, far, rfl, e2, e3⟩
          refine ⟨a :: near, b, far, rfl, e2, ?_⟩
          intro n hn
          rcases List.mem_cons.mp hn with rfl | hn
          · exact ⟨h1, h2⟩
          · exact e3 n hn
      rw [e]; exact ih
    | some b =>
      rw [hl] at l1 l2
      cases b with
      | true =>
        have h1 : a ∈ argumentsOf "allow-in" cs := l1.mp rfl
        have h2 : a ∉ argumentsOf "forbid-in" cs := fun h => by simpa using l2.mpr h
        have : ¬ Forbidden cs (a :: stack) := by
          rintro ⟨near, b, far, e1, e2, e3⟩
          cases near with
          | nil => simp at e1; obtain ⟨rfl, rfl⟩ := e1; exact h2 e2
          | cons c near =>
            simp at e1; obtain ⟨rfl, rfl⟩ := e1
            exact (e3 a (by simp)).1 h1
        simp [this]
      | false =>
        have h2 : a ∈ argumentsOf "forbid-in" cs := l2.mp rfl
        have : Forbidden cs (a :: stack) := ⟨[], a, stack, rfl, h2, by simp⟩
        simp [this]

theorem nodeName_known {names : List (List Nat)} {name : List Nat} (h : name ∈ names ∨ name = []) :
    ∃ i : Int, nodeName names name = some i ∧ -1 ≤ i ∧ i < names.length := by
  unfold nodeName
  split
  · next i hi =>
    have := List.mem_of_getLast? hi
    simp only [List.mem_filter, List.mem_range] at this
    exact ⟨_, rfl, by omega, by omega⟩
  · next hi =>
    by_cases hn : name = []
    · rw [if_pos hn]; exact ⟨-1, rfl, le_refl _, by omega⟩
    · exfalso
      rw [List.getLast?_eq_none_iff, List.filter_eq_nil_iff] at hi
      obtain ⟨i, hlt, hget⟩ := List.mem_iff_getElem.mp (h.resolve_right hn)
      exact hi i (List.mem_range.mpr hlt) (by simp [List.getElem?_eq_getElem hlt, hget])

theorem nodeName_eq {names : List (List Nat)} (hd : names.Nodup) (hne : [] ∉ names) (name : List Nat) (i : Nat)
    (hi : i < names.length) : nodeName names name = some (i : Int) ↔ name = names[i] := by
  unfold nodeName
  split
  · next k hk =>
    have := List.mem_of_getLast? hk
    simp only [List.mem_filter, List.mem_range, decide_eq_true_eq] at this
    obtain ⟨h1, h2⟩ := this
    rw [List.getElem?_eq_getElem h1, Option.some.injEq] at h2
    subst h2
    rw [hd.getElem_inj_iff]
    simp
  · next hk =>
    rw [List.getLast?_eq_none_iff, List.filter_eq_nil_iff] at hk
    have h1 : name ≠ names[i] := fun h => hk i (List.mem_range.mpr hi) (by simp [h, List.getElem?_eq_getElem hi])
    constructor
    · intro h
      split at h
      · simp only [Option.some.injEq] at h; omega
      · cases h
    · intro h; exact absurd h h1

theorem nodeName_any {names : List (List Nat)} (hne : [] ∉ names) (name : List Nat) :
    nodeName names name = some (-1) ↔ name = [] := by
  unfold nodeName
  split
  · next k hk =>
    have := List.mem_of_getLast? hk
    simp only [List.mem_filter, List.mem_range, decide_eq_true_eq] at this
    obtain ⟨h1, h2⟩ := this
    rw [List.getElem?_eq_getElem h1, Option.some.injEq] at h2
    simp only [Option.some.injEq]
    constructor
    · intro h; omega
    · rintro rfl
      exact absurd (h2 ▸ List.getElem_mem h1) hne
  · split <;> simp_all

/-- A layer with the same hook for all listed nodes. -/
theorem newNodeLayer_same {H : Type} (names : List (List Nat)) (H0 : H) : ∀ (ns : List (List Nat)) (hooks : List (Option H)),
    hooks.length = names.length + 1 → (∀ n ∈ ns, n ∈ names ∨ n = []) →
    ∃ l, newNodeLayer names (ns.map (·, H0)) hooks = some (some l) ∧ l.length = names.length + 1 ∧
      ∀ i : Int, -1 ≤ i → i < names.length →
        Go.index l (i + 1) = if ∃ n ∈ ns, nodeName names n = some i then some (some H0) else Go.index hooks (i + 1)
  | [], hooks, hl, _ => ⟨hooks, rfl, hl, by simp⟩
  | n :: ns, hooks, hl, hk => by
    obtain ⟨i, h1, h2, h3⟩ := nodeName_known (hk n (by simp))
    obtain ⟨l, h4, h5, h6⟩ := newNodeLayer_same names H0 ns (hooks.set (i + 1).toNat (some H0)) (by simpa using hl)
      (fun m hm => hk m (by simp [hm]))
    refine ⟨l, ?_, h5, ?_⟩
    · rw [List.map_cons, newNodeLayer, h1]
      simp only
      rw [Go.setIndex, if_pos ⟨by omega, by omega⟩]
      exact h4
    · intro j hj1 hj2
      rw [h6 j hj1 hj2]
      by_cases hex : ∃ m ∈ ns, nodeName names m = some j
      · rw [if_pos hex, if_pos (by obtain ⟨m, h, h'⟩ := hex; exact ⟨m, by simp [h], h'⟩)]
      · rw [if_neg hex]
        by_cases hij : i = j
        · subst hij
          rw [if_pos ⟨n, by simp, h1⟩, Go.index, if_pos (by omega), List.getElem?_set, if_pos rfl, if_pos (by omega)]
        · rw [if_neg (by
            rintro ⟨m, hm, hm'⟩
            rcases List.mem_cons.mp hm with rfl | hm
            · rw [h1] at hm'; exact hij (by simpa using hm')
            · exact hex ⟨m, hm, hm'⟩)]
          rw [Go.index, if_pos (by omega), List.getElem?_set, if_neg (by omega), Go.index, if_pos (by omega)]

/-! Registry -/

/-- Registers templates one after another. -/
theorem register_all {τ : Type} (name : List Nat) : ∀ (regs known : List (List Nat × τ)),
    (regs.foldl (fun k r => (registerLayer k r.1 r.2).1) known).lookup name = (known.lookup name).or (regs.lookup name)
  | [], known => by simp
  | (n, t) :: regs, known => by
    rw [List.foldl_cons, register_all name regs]
    simp only [registerLayer]
    by_cases hn : name = n
    · subst hn
      rw [List.lookup_cons, BEq.rfl]
      cases h : known.lookup name with
      | some x => simp [h]
      | none =>
        have : (known ++ [(name, t)]).lookup name = some t := by
          rw [List.lookup_append, h]; simp
        simp [this]
    · have hb : (name == n) = false := by simpa using hn
      rw [List.lookup_cons, hb]
      cases h : known.lookup n with
      | some x => simp
      | none =>
        have : (known ++ [(n, t)]).lookup name = known.lookup name := by
          rw [List.lookup_append, List.lookup_cons, hb]; simp
        simp [this]

end Verif.Proof
