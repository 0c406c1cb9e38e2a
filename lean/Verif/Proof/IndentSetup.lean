/-
Configuration of the "indent" layer.
-/
import Verif.Proof.IndentRun
import Verif.Proof.Layers

namespace Verif.Proof.Indent

open Verif.Model Verif.Spec Verif.Spec.Indent Verif.Spec.Layers Verif.Proof

/-- `indentRoles` from a given list. -/
def putRoles (ps : List (Int × IndentRole)) (base : Option (List IndentRole)) : Option (List IndentRole) :=
  ps.foldl (fun l p => l.bind fun l => Go.setIndex l p.1 p.2) base

theorem putRoles_none (ps : List (Int × IndentRole)) : putRoles ps none = none := by
  induction ps with
  | nil => rfl
  | cons p ps ih => exact ih

theorem putRoles_append (ps qs : List (Int × IndentRole)) (base : Option (List IndentRole)) :
    putRoles (ps ++ qs) base = putRoles qs (putRoles ps base) := List.foldl_append

theorem putRoles_some (r : IndentRole) : ∀ (ks : List Int) (base : List IndentRole),
    (∀ k ∈ ks, 0 ≤ k ∧ k < base.length) → ∃ l, putRoles (ks.map (·, r)) (some base) = some l ∧ l.length = base.length ∧
      ∀ i : Nat, i < base.length → l[i]? = if (i : Int) ∈ ks then some r else base[i]?
  | [], base, _ => ⟨base, rfl, rfl, by simp⟩
  | k :: ks, base, h => by
    have hk := h k (by simp)
    have hset : Go.setIndex base k r = some (base.set k.toNat r) := by
      rw [Go.setIndex, if_pos ⟨hk.1, by omega⟩]
    obtain ⟨l, h1, h2, h3⟩ := putRoles_some r ks (base.set k.toNat r) (fun x hx => by
      rw [List.length_set]; exact h x (by simp [hx]))
    refine ⟨l, ?_, by rw [h2, List.length_set], ?_⟩
    · simp only [List.map_cons, putRoles, List.foldl_cons, Option.bind_some, hset]
      exact h1
    · intro i hi
      rw [h3 i (by rw [List.length_set]; exact hi)]
      by_cases hm : (i : Int) ∈ ks
      · rw [if_pos hm, if_pos (by simp [hm])]
      · rw [if_neg hm, List.getElem?_set]
        by_cases he : k.toNat = i
        · have : (i : Int) = k := by omega
          rw [if_pos he, if_pos (by omega), if_pos (by simp [this])]
        · have : (i : Int) ≠ k := by omega
          rw [if_neg he, if_neg (by simp [hm, this])]

theorem putRoles_negative (r : IndentRole) : ∀ (ks : List Int) (base : List IndentRole),
    (∃ k ∈ ks, k < 0) → putRoles (ks.map (·, r)) (some base) = none
  | [], _, h => by simp at h
  | k :: ks, base, h => by
    simp only [List.map_cons, putRoles, List.foldl_cons, Option.bind_some]
    by_cases hk : k < 0
    · rw [Go.setIndex, if_neg (by omega)]
      exact putRoles_none _
    · cases hs : Go.setIndex base k r with
      | none => exact putRoles_none _
      | some b =>
        refine putRoles_negative r ks b ?_
        obtain ⟨x, hx, hx'⟩ := h
        rcases List.mem_cons.1 hx with rfl | hx
        · exact absurd hx' hk
        · exact ⟨x, hx, hx'⟩

theorem sides_spec : ∀ (ts : List GToken) (k : Nat) (v : IndentVars), v.maxType ≤ k →
    ∃ ks : List Int, (ts.zipIdx k).foldl (fun v t => if t.1.flags.side then
        { v with roleMap := v.roleMap ++ [((t.2 : Int), .side)], maxType := t.2 } else v) v =
        { v with roleMap := v.roleMap ++ ks.map (·, .side), maxType := ks.getLastD v.maxType } ∧
      v.maxType ≤ ks.getLastD v.maxType ∧ (∀ i ∈ ks, i ≤ ks.getLastD v.maxType) ∧
      ∀ i : Int, i ∈ ks ↔ ∃ j : Nat, i = k + j ∧ ∃ d, ts[j]? = some d ∧ d.flags.side = true
  | [], k, v, _ => ⟨[], by simp, by simp, by simp, by simp⟩
  | t :: ts, k, v, hv => by
    rw [List.zipIdx_cons, List.foldl_cons]
    by_cases ht : t.flags.side = true
    · simp only [ht, if_true]
      obtain ⟨ks, h1, h2, h3, h4⟩ := sides_spec ts (k + 1)
        { v with roleMap := v.roleMap ++ [((k : Int), .side)], maxType := k } (by simp)
      refine ⟨k :: ks, ?_, ?_, ?_, ?_⟩
      · rw [h1, getLastD_cons']; simp
      · rw [getLastD_cons']; exact le_trans hv h2
      · intro i hi
        rw [getLastD_cons']
        rcases List.mem_cons.1 hi with rfl | hi
        · exact h2
        · exact h3 i hi
      · intro i
        rw [List.mem_cons, h4]
        constructor
        · rintro (rfl | ⟨j, rfl, d, hd⟩)
          · exact ⟨0, by simp, t, by simp, ht⟩
          · exact ⟨j + 1, by push_cast; omega, d, by simpa using hd⟩
        · rintro ⟨j, rfl, d, hd, hd'⟩
          cases j with
          | zero => left; simp
          | succ j => right; exact ⟨j, by push_cast; omega, d, by simpa using hd, hd'⟩
    · simp only [ht, Bool.false_eq_true, if_false]
      obtain ⟨ks, h1, h2, h3, h4⟩ := sides_spec ts (k + 1) v (by push_cast; omega)
      refine ⟨ks, h1, h2, h3, ?_⟩
      intro i
      rw [h4]
      constructor
      · rintro ⟨j, rfl, d, hd⟩
        exact ⟨j + 1, by push_cast; omega, d, by simpa using hd⟩
      · rintro ⟨j, rfl, d, hd, hd'⟩
        cases j with
        | zero => simp only [List.getElem?_cons_zero, Option.some.injEq] at hd; subst hd; exact absurd hd' ht
        | succ j => exact ⟨j, by push_cast; omega, d, by simpa using hd, hd'⟩

/-- Types of names. -/
def typesOf (g : Grammar) (ns : List (List Nat)) : List Int := ns.filterMap g.tokenName

theorem spaceArgs_ok (g : Grammar) : ∀ (ns : List (List Nat)) (v v' : IndentVars),
    indentSpaceArgs g ns v = .ok v' ↔ (∀ n ∈ ns, g.tokenName n ≠ none) ∧
      v' = { v with maxType := (typesOf g ns).foldl (fun m k => if k ≥ m then k else m) v.maxType,
                    roleMap := v.roleMap ++ (typesOf g ns).map (·, .space) }
  | [], v, v' => by
    simp only [indentSpaceArgs, typesOf, Except.ok.injEq]
    simp only [List.filterMap_nil, List.foldl_nil, List.map_nil, List.append_nil, List.not_mem_nil, false_implies,
      implies_true, true_and]
    exact eq_comm
  | n :: ns, v, v' => by
    rw [indentSpaceArgs]
    cases hn : g.tokenName n with
    | none => simp [hn]
    | some k =>
      simp only [spaceArgs_ok g ns, List.mem_cons, forall_eq_or_imp, hn, ne_eq, reduceCtorEq, not_false_eq_true, true_and]
      simp [typesOf, hn]

theorem foldl_max (ks : List Int) (m : Int) : m ≤ ks.foldl (fun m k => if k ≥ m then k else m) m ∧
    ∀ k ∈ ks, k ≤ ks.foldl (fun m k => if k ≥ m then k else m) m := by
  induction ks generalizing m with
  | nil => simp
  | cons k ks ih =>
    rw [List.foldl_cons]
    obtain ⟨h1, h2⟩ := ih (if k ≥ m then k else m)
    refine ⟨?_, ?_⟩
    · refine le_trans ?_ h1
      split <;> omega
    · intro x hx
      rcases List.mem_cons.1 hx with rfl | hx
      · refine le_trans ?_ h1
        split <;> omega
      · exact h2 x hx

/-- A correct name of a token to emit. -/
def Emits (g : Grammar) (n : List Nat) : Prop := ∃ k : Int, g.tokenName n = some k ∧ 0 ≤ k

/-- Correct commands. -/
def CommandOk (g : Grammar) (c : LayerCommand) : Prop :=
  (c.command = bytesOf "space" → c.arguments ≠ [] ∧ ∀ n ∈ c.arguments, g.tokenName n ≠ none) ∧
  (c.command = bytesOf "on-indent" ∨ c.command = bytesOf "on-dedent" → ∃ n, c.arguments = [n] ∧ Emits g n)

/-- How a variable changes: it is set at most once. -/
def Once' (g : Grammar) (args : List (List Nat)) (old new : List Nat) : Prop :=
  args = [] ∧ new = old ∨ old = [] ∧ args = [new] ∧ Emits g new

/-- Variables before and after. -/
structure Changed (g : Grammar) (cs : List LayerCommand) (v v' : IndentVars) : Prop where
  got : v'.gotSpaces = (v.gotSpaces || decide (∃ c ∈ cs, c.command = bytesOf "space"))
  roles : v'.roleMap = v.roleMap ++ (typesOf g (argumentsOf "space" cs)).map (·, .space)
  max : v.maxType ≤ v'.maxType
  maxs : ∀ k ∈ typesOf g (argumentsOf "space" cs), k ≤ v'.maxType
  onIndent : Once' g (argumentsOf "on-indent" cs) v.indentType v'.indentType
  onDedent : Once' g (argumentsOf "on-dedent" cs) v.dedentType v'.dedentType

theorem argumentsOf_one (name : String) (c : LayerCommand) :
    argumentsOf name [c] = if c.command = bytesOf name then c.arguments else [] := by
  rw [argumentsOf_cons, show argumentsOf name [] = [] from rfl, List.append_nil]

theorem command_fwd {g : Grammar} {v v' : IndentVars} {c : LayerCommand} (h : indentCommand g v c = .ok v') :
    CommandOk g c ∧ Changed g [c] v v' := by
  have n1 : bytesOf "space" ≠ bytesOf "on-indent" := by decide +kernel
  have n2 : bytesOf "space" ≠ bytesOf "on-dedent" := by decide +kernel
  have n3 : bytesOf "on-indent" ≠ bytesOf "on-dedent" := by decide +kernel
  unfold indentCommand at h
  by_cases hs : c.command = bytesOf "space"
  · simp only [if_pos hs] at h
    split at h
    · cases h
    · next hl =>
      obtain ⟨h1, rfl⟩ := (spaceArgs_ok g _ _ _).1 h
      refine ⟨⟨fun _ => ⟨fun hc => hl (by rw [hc]; rfl), h1⟩, ?_⟩, ?_, ?_, ?_, ?_, ?_, ?_⟩
      · rw [hs]; rintro (hc | hc)
        · exact absurd hc n1
        · exact absurd hc n2
      · simp [hs]
      · simp [argumentsOf_one, hs]
      · exact (foldl_max _ _).1
      · rw [argumentsOf_one, if_pos hs]; exact (foldl_max _ _).2
      · left; rw [argumentsOf_one, hs, if_neg n1]; exact ⟨rfl, rfl⟩
      · left; rw [argumentsOf_one, hs, if_neg n2]; exact ⟨rfl, rfl⟩
  · rw [if_neg hs] at h
    by_cases ho : c.command = bytesOf "on-indent" ∨ c.command = bytesOf "on-dedent"
    · rw [if_pos ho] at h
      cases ha : c.arguments with
      | nil => rw [ha] at h; cases h
      | cons n ns =>
        cases ns with
        | cons m ns => rw [ha] at h; cases h
        | nil =>
          rw [ha] at h
          simp only at h
          cases hn : g.tokenName n with
          | none => rw [hn] at h; cases h
          | some k =>
            rw [hn] at h
            simp only at h
            split at h
            · cases h
            · next hk =>
              have hem : Emits g n := ⟨k, hn, by omega⟩
              refine ⟨⟨fun hc => absurd hc hs, fun _ => ⟨n, ha, hem⟩⟩, ?_⟩
              split at h
              · next hi =>
                split at h
                · cases h
                · next hv =>
                  simp only [Except.ok.injEq] at h
                  subst h
                  refine ⟨by simp [hs], by simp [argumentsOf_one, hs, typesOf], le_refl _, by simp [argumentsOf_one, hs, typesOf], ?_, ?_⟩
                  · right; rw [argumentsOf_one, if_pos hi, ha]; exact ⟨not_not.1 hv, rfl, hem⟩
                  · left; rw [argumentsOf_one, hi, if_neg n3]; exact ⟨rfl, rfl⟩
              · next hi =>
                have hi' := ho.resolve_left hi
                split at h
                · cases h
                · next hv =>
                  simp only [Except.ok.injEq] at h
                  subst h
                  refine ⟨by simp [hs], by simp [argumentsOf_one, hs, typesOf], le_refl _, by simp [argumentsOf_one, hs, typesOf], ?_, ?_⟩
                  · left; rw [argumentsOf_one, if_neg hi]; exact ⟨rfl, rfl⟩
                  · right; rw [argumentsOf_one, if_pos hi', ha]; exact ⟨not_not.1 hv, rfl, hem⟩
    · rw [if_neg ho] at h
      simp only [Except.ok.injEq] at h
      subst h
      refine ⟨⟨fun hc => absurd hc hs, fun hc => absurd hc ho⟩, by simp [hs], by simp [argumentsOf_one, hs, typesOf], le_refl _,
        by simp [argumentsOf_one, hs, typesOf], ?_, ?_⟩
      · left; rw [argumentsOf_one, if_neg (fun hc => ho (.inl hc))]; exact ⟨rfl, rfl⟩
      · left; rw [argumentsOf_one, if_neg (fun hc => ho (.inr hc))]; exact ⟨rfl, rfl⟩

theorem command_bwd {g : Grammar} {v : IndentVars} {c : LayerCommand} (hc : CommandOk g c)
    (h1 : argumentsOf "on-indent" [c] = [] ∨ v.indentType = []) (h2 : argumentsOf "on-dedent" [c] = [] ∨ v.dedentType = []) :
    ∃ v', indentCommand g v c = .ok v' := by
  unfold indentCommand
  by_cases hs : c.command = bytesOf "space"
  · obtain ⟨k1, k2⟩ := hc.1 hs
    simp only [if_pos hs]
    rw [if_neg (fun h => k1 (List.eq_nil_of_length_eq_zero h))]
    exact ⟨_, (spaceArgs_ok g _ _ _).2 ⟨k2, rfl⟩⟩
  · rw [if_neg hs]
    by_cases ho : c.command = bytesOf "on-indent" ∨ c.command = bytesOf "on-dedent"
    · rw [if_pos ho]
      obtain ⟨n, ha, k, hk, hk'⟩ := hc.2 ho
      rw [argumentsOf_one, ha] at h1 h2
      rw [ha]
      simp only [hk]
      rw [if_neg (by omega)]
      by_cases hi : c.command = bytesOf "on-indent"
      · rw [if_pos hi] at h1 ⊢
        rw [if_neg (by simpa using h1)]
        exact ⟨_, rfl⟩
      · have hi' := ho.resolve_left hi
        rw [if_pos hi'] at h2
        rw [if_neg hi, if_neg (by simpa using h2)]
        exact ⟨_, rfl⟩
    · rw [if_neg ho]; exact ⟨_, rfl⟩

theorem once_trans {g : Grammar} {a b : List (List Nat)} {x y z : List Nat} (hne : ¬ Emits g []) (h1 : Once' g a x y)
    (h2 : Once' g b y z) : Once' g (a ++ b) x z := by
  rcases h1 with ⟨rfl, rfl⟩ | ⟨rfl, rfl, h⟩
  · simpa using h2
  · rcases h2 with ⟨rfl, rfl⟩ | ⟨rfl, -, -⟩
    · right; exact ⟨rfl, rfl, h⟩
    · exact absurd h hne

theorem typesOf_append (g : Grammar) (a b : List (List Nat)) : typesOf g (a ++ b) = typesOf g a ++ typesOf g b :=
  List.filterMap_append

theorem commands_fwd {g : Grammar} (hne : ¬ Emits g []) : ∀ {cs : List LayerCommand} {v v' : IndentVars},
    indentCommands g v cs = .ok v' → (∀ c ∈ cs, CommandOk g c) ∧ Changed g cs v v'
  | [], v, v', h => by
    simp only [indentCommands, Except.ok.injEq] at h
    subst h
    exact ⟨by simp, by simp, by simp [typesOf, argumentsOf], le_refl _, by simp [typesOf, argumentsOf], .inl ⟨rfl, rfl⟩, .inl ⟨rfl, rfl⟩⟩
  | c :: cs, v, v', h => by
    rw [indentCommands] at h
    cases hc : indentCommand g v c with
    | error e => rw [hc] at h; cases h
    | ok v1 =>
      rw [hc] at h
      obtain ⟨a1, a2⟩ := command_fwd hc
      obtain ⟨b1, b2⟩ := commands_fwd hne h
      refine ⟨by simpa using ⟨a1, b1⟩, ?_, ?_, le_trans a2.max b2.max, ?_, ?_, ?_⟩
      · rw [b2.got, a2.got, Bool.or_assoc]
        congr 1
        simp
      · rw [b2.roles, a2.roles, args_single _ c cs, typesOf_append, List.map_append, List.append_assoc]
      · intro k hk
        rw [args_single, typesOf_append, List.mem_append] at hk
        rcases hk with hk | hk
        · exact le_trans (a2.maxs k hk) b2.max
        · exact b2.maxs k hk
      · rw [args_single]; exact once_trans hne a2.onIndent b2.onIndent
      · rw [args_single]; exact once_trans hne a2.onDedent b2.onDedent

theorem commands_bwd {g : Grammar} : ∀ {cs : List LayerCommand} {v : IndentVars}, (∀ c ∈ cs, CommandOk g c) →
    (argumentsOf "on-indent" cs = [] ∨ v.indentType = [] ∧ (argumentsOf "on-indent" cs).length ≤ 1) →
    (argumentsOf "on-dedent" cs = [] ∨ v.dedentType = [] ∧ (argumentsOf "on-dedent" cs).length ≤ 1) →
    ∃ v', indentCommands g v cs = .ok v'
  | [], v, _, _, _ => ⟨v, rfl⟩
  | c :: cs, v, hc, h1, h2 => by
    rw [args_single] at h1 h2
    have key : ∀ {a b : List (List Nat)} {x : List Nat}, (a ++ b = [] ∨ x = [] ∧ (a ++ b).length ≤ 1) →
        (a = [] ∨ x = []) ∧ ∀ y, Once' g a x y → (b = [] ∨ y = [] ∧ b.length ≤ 1) := by
      intro a b x h
      refine ⟨?_, ?_⟩
      · rcases h with h | h
        · exact .inl (List.append_eq_nil_iff.1 h).1
        · exact .inr h.1
      · rintro y (⟨rfl, rfl⟩ | ⟨rfl, rfl, -⟩)
        · simpa using h
        · left
          rcases h with h | h
          · simp at h
          · rw [List.length_append] at h
            exact List.eq_nil_of_length_eq_zero (by simp at h; simpa using h)
    obtain ⟨v1, e⟩ := command_bwd (hc c (by simp)) (key h1).1 (key h2).1
    obtain ⟨-, a2⟩ := command_fwd e
    obtain ⟨v', e'⟩ := commands_bwd (v := v1) (fun c h => hc c (by simp [h])) ((key h1).2 _ a2.onIndent) ((key h2).2 _ a2.onDedent)
    exact ⟨v', by rw [indentCommands, e]; exact e'⟩

theorem emits_empty {g : Grammar} (h : g.tokenName [] = some anyToken) : ¬ Emits g [] := by
  rintro ⟨k, hk, hk'⟩
  rw [h] at hk
  cases hk
  exact absurd hk' (by decide)

theorem mem_typesOf {g : Grammar} {ns : List (List Nat)} {k : Int} : k ∈ typesOf g ns ↔ ∃ n ∈ ns, g.tokenName n = some k :=
  List.mem_filterMap

/-- The list of roles if types of spaces are not negative. -/
theorem roles_spec {g : Grammar} (hne : ¬ Emits g []) {cs : List LayerCommand} {v : IndentVars}
    (h : indentCommands g (indentSides g) cs = .ok v) :
    ((∃ k ∈ typesOf g (argumentsOf "space" cs), k < 0) → indentRoles v = none) ∧
    ((∀ k ∈ typesOf g (argumentsOf "space" cs), 0 ≤ k) → ∃ roles, indentRoles v = some roles ∧
      ∀ i : Nat, (roles[i]?).getD .common = if (i : Int) ∈ typesOf g (argumentsOf "space" cs) then .space
        else if ∃ d, g.tokens[i]? = some d ∧ d.flags.side = true then .side else .common) := by
  obtain ⟨-, ch⟩ := commands_fwd hne h
  obtain ⟨ks, e1, e2, e3, e4⟩ := sides_spec g.tokens 0 {} (le_refl _)
  have hroles := ch.roles
  have hmax := ch.max
  unfold indentSides at hroles hmax
  rw [e1] at hroles hmax
  simp only [List.nil_append] at hroles hmax
  change 0 ≤ ks.getLastD 0 at e2
  change ∀ i ∈ ks, i ≤ ks.getLastD 0 at e3
  have hv : indentRoles v = putRoles v.roleMap (some (List.replicate (v.maxType + 1).toNat .common)) := rfl
  rw [hv, hroles, putRoles_append]
  obtain ⟨l1, f1, f2, f3⟩ := putRoles_some .side ks (List.replicate (v.maxType + 1).toNat .common) (by
    intro k hk
    have := e3 k hk
    obtain ⟨j, rfl, -⟩ := (e4 k).1 hk
    rw [List.length_replicate]
    omega)
  rw [f1]
  refine ⟨putRoles_negative .space _ _, ?_⟩
  intro hnn
  obtain ⟨l2, g1, g2, g3⟩ := putRoles_some .space (typesOf g (argumentsOf "space" cs)) l1 (by
    intro k hk
    have := ch.maxs k hk
    have := hnn k hk
    rw [f2, List.length_replicate]
    omega)
  refine ⟨l2, g1, ?_⟩
  intro i
  have hside : (i : Int) ∈ ks ↔ ∃ d, g.tokens[i]? = some d ∧ d.flags.side = true := by
    rw [e4]
    constructor
    · rintro ⟨j, hj, h⟩
      have : i = j := by omega
      rw [this]; exact h
    · intro h; exact ⟨i, by omega, h⟩
  by_cases hi : i < l2.length
  · rw [g2, f2] at hi
    rw [g3 i (by rw [f2]; exact hi), f3 i hi]
    rw [List.length_replicate] at hi
    by_cases h1 : (i : Int) ∈ typesOf g (argumentsOf "space" cs)
    · simp [h1]
    · rw [if_neg h1, if_neg h1]
      by_cases h2 : (i : Int) ∈ ks
      · rw [if_pos h2, if_pos (hside.1 h2)]; rfl
      · rw [if_neg h2, if_neg (fun h => h2 (hside.2 h)), List.getElem?_replicate, if_pos hi]; rfl
  · have hnone : l2[i]? = none := List.getElem?_eq_none (by omega)
    rw [g2, f2, List.length_replicate] at hi
    rw [hnone, if_neg, if_neg]
    · rfl
    · intro h
      have := e3 i (hside.2 h)
      omega
    · intro h
      have := ch.maxs i h
      omega

/-- Accepted configurations. -/
theorem setup_fwd {g : Grammar} {cs : List LayerCommand} {l : IndentLayer} (hn : g.tokenName [] = some anyToken)
    (h : indentSetup g cs = some (.ok l)) : IndentOk g cs ∧ l.g = g ∧ argumentsOf "on-indent" cs = [l.indentType] ∧
      argumentsOf "on-dedent" cs = [l.dedentType] ∧
      ∀ i : Nat, (l.roles[i]?).getD .common = if (i : Int) ∈ typesOf g (argumentsOf "space" cs) then .space
        else if ∃ d, g.tokens[i]? = some d ∧ d.flags.side = true then .side else .common := by
  have hne := emits_empty hn
  unfold indentSetup at h
  cases hc : indentCommands g (indentSides g) cs with
  | error e => rw [hc] at h; cases h
  | ok v =>
    rw [hc] at h
    simp only at h
    obtain ⟨ok, ch⟩ := commands_fwd hne hc
    obtain ⟨ks, e1, -, -, -⟩ := sides_spec g.tokens 0 {} (le_refl _)
    have hgot := ch.got
    have hin := ch.onIndent
    have hde := ch.onDedent
    unfold indentSides at hgot hin hde
    rw [e1] at hgot hin hde
    simp only [Bool.false_or] at hgot
    split at h
    · cases h
    · next h1 =>
      split at h
      · cases h
      · next h2 =>
        split at h
        · cases h
        · next h3 =>
          obtain ⟨r1, r2⟩ := roles_spec hne hc
          have hnn : ∀ k ∈ typesOf g (argumentsOf "space" cs), 0 ≤ k := by
            by_contra hcon
            push Not at hcon
            rw [r1 hcon] at h
            cases h
          obtain ⟨roles, r3, r4⟩ := r2 hnn
          rw [r3] at h
          simp only [Option.map_some, Option.some.injEq, Except.ok.injEq] at h
          subst h
          have hin' : argumentsOf "on-indent" cs = [v.indentType] ∧ Emits g v.indentType := by
            rcases hin with ⟨-, h⟩ | ⟨-, h⟩
            · exact absurd h h2
            · exact h
          have hde' : argumentsOf "on-dedent" cs = [v.dedentType] ∧ Emits g v.dedentType := by
            rcases hde with ⟨-, h⟩ | ⟨-, h⟩
            · exact absurd h h3
            · exact h
          refine ⟨⟨?_, ?_, ?_, ⟨_, hin'⟩, ⟨_, hde'⟩⟩, rfl, hin'.1, hde'.1, r4⟩
          · rw [hgot] at h1; simpa using h1
          · intro c hc hs
            obtain ⟨a, b⟩ := (ok c hc).1 hs
            refine ⟨a, fun n hn => ?_⟩
            obtain ⟨k, hk⟩ := Option.ne_none_iff_exists'.mp (b n hn)
            refine ⟨k, hk, hnn k (mem_typesOf.2 ⟨n, ?_, hk⟩)⟩
            simp only [argumentsOf, List.mem_flatMap, List.mem_filter, decide_eq_true_eq]
            exact ⟨c, ⟨hc, hs⟩, hn⟩
          · intro c hc ho
            obtain ⟨n, hn, -⟩ := (ok c hc).2 ho
            rw [hn]; rfl

theorem mem_argumentsOf {name : String} {cs : List LayerCommand} {n : List Nat} :
    n ∈ argumentsOf name cs ↔ ∃ c ∈ cs, c.command = bytesOf name ∧ n ∈ c.arguments := by
  simp only [argumentsOf, List.mem_flatMap, List.mem_filter, decide_eq_true_eq]
  constructor
  · rintro ⟨c, ⟨h1, h2⟩, h3⟩; exact ⟨c, h1, h2, h3⟩
  · rintro ⟨c, h1, h2, h3⟩; exact ⟨c, ⟨h1, h2⟩, h3⟩

theorem setup_bwd {g : Grammar} {cs : List LayerCommand} (hn : g.tokenName [] = some anyToken) (ok : IndentOk g cs) :
    ∃ l, indentSetup g cs = some (.ok l) := by
  have hne := emits_empty hn
  obtain ⟨ni, hni, hni'⟩ := ok.onIndent
  obtain ⟨nd, hnd, hnd'⟩ := ok.onDedent
  obtain ⟨ks, e1, -, -, -⟩ := sides_spec g.tokens 0 {} (le_refl _)
  have t1 : (indentSides g).indentType = [] := by unfold indentSides; rw [e1]
  have t2 : (indentSides g).dedentType = [] := by unfold indentSides; rw [e1]
  have hcmd : ∀ c ∈ cs, CommandOk g c := by
    intro c hc
    refine ⟨fun hs => ?_, fun ho => ?_⟩
    · obtain ⟨a, b⟩ := ok.space c hc hs
      refine ⟨a, fun n hn => ?_⟩
      obtain ⟨k, hk, -⟩ := b n hn
      rw [hk]; simp
    · obtain ⟨n, hn⟩ := List.length_eq_one_iff.1 (ok.one c hc ho)
      refine ⟨n, hn, ?_⟩
      rcases ho with ho | ho
      · have : n ∈ argumentsOf "on-indent" cs := mem_argumentsOf.2 ⟨c, hc, ho, by simp [hn]⟩
        rw [hni, List.mem_singleton] at this
        rw [this]; exact hni'
      · have : n ∈ argumentsOf "on-dedent" cs := mem_argumentsOf.2 ⟨c, hc, ho, by simp [hn]⟩
        rw [hnd, List.mem_singleton] at this
        rw [this]; exact hnd'
  obtain ⟨v, hv⟩ := commands_bwd (v := indentSides g) hcmd (.inr ⟨t1, by rw [hni]; simp⟩) (.inr ⟨t2, by rw [hnd]; simp⟩)
  obtain ⟨-, ch⟩ := commands_fwd hne hv
  have hnn : ∀ k ∈ typesOf g (argumentsOf "space" cs), 0 ≤ k := by
    intro k hk
    obtain ⟨n, hn, hk⟩ := mem_typesOf.1 hk
    obtain ⟨c, hc, hs, hn⟩ := mem_argumentsOf.1 hn
    obtain ⟨k', hk', hk''⟩ := (ok.space c hc hs).2 n hn
    rw [hk] at hk'; cases hk'
    exact hk''
  obtain ⟨roles, hr, -⟩ := (roles_spec hne hv).2 hnn
  have hgot : v.gotSpaces = true := by rw [ch.got]; simp [ok.given]
  have hi : v.indentType ≠ [] := by
    rcases ch.onIndent with ⟨h, -⟩ | ⟨-, h, h'⟩
    · rw [hni] at h; cases h
    · intro hc; rw [hc] at h'; exact hne h'
  have hd : v.dedentType ≠ [] := by
    rcases ch.onDedent with ⟨h, -⟩ | ⟨-, h, h'⟩
    · rw [hnd] at h; cases h
    · intro hc; rw [hc] at h'; exact hne h'
  refine ⟨⟨g, v.indentType, v.dedentType, roles⟩, ?_⟩
  unfold indentSetup
  simp only [hv, hgot, not_true_eq_false, if_false, hi, hd, hr, Option.map_some]

/-- Roles of tokens are those given by the configuration. -/
theorem role_eq {g : Grammar} {cs : List LayerCommand} {l : IndentLayer}
    (h : ∀ i : Nat, (l.roles[i]?).getD .common = if (i : Int) ∈ typesOf g (argumentsOf "space" cs) then .space
        else if ∃ d, g.tokens[i]? = some d ∧ d.flags.side = true then .side else .common) :
    l.role = roleOf g cs ∧ PlainRoles l := by
  constructor
  · funext t
    unfold IndentLayer.role roleOf
    by_cases h1 : t.type = eoiTokenType
    · rw [if_pos h1, if_pos h1]
    rw [if_neg h1, if_neg h1]
    by_cases h2 : t.type < 0 ∨ t.content = []
    · rw [if_pos h2, if_pos (by simpa using h2)]
    rw [if_neg h2, if_neg (by simpa using h2)]
    have hpos : 0 ≤ t.type := by
      by_contra hc
      exact h2 (.inl (by omega))
    have hcast : ((t.type.toNat : Nat) : Int) = t.type := by omega
    have key := h t.type.toNat
    rw [hcast] at key
    have hmem := mem_typesOf (g := g) (ns := argumentsOf "space" cs) (k := t.type)
    have hval : (if t.type < l.roles.length then (l.roles[t.type.toNat]?).getD .common else .common) =
        (l.roles[t.type.toNat]?).getD .common := by
      split
      · rfl
      · rw [List.getElem?_eq_none (by omega)]; rfl
    rw [hval, key]
    by_cases h3 : ∃ n ∈ argumentsOf "space" cs, g.tokenName n = some t.type
    · rw [if_pos (hmem.2 h3), if_pos h3]
    · rw [if_neg (fun h => h3 (hmem.1 h)), if_neg h3]
  · intro r hr
    obtain ⟨i, hi⟩ := List.mem_iff_getElem?.1 hr
    have := h i
    rw [hi, Option.getD_some] at this
    rw [this]
    split
    · simp
    · split <;> simp

end Verif.Proof.Indent
