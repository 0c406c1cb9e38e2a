/-
The "indent" layer.
-/
import Verif.Spec.Indent
import Mathlib.Data.List.Basic
import Mathlib.Data.List.Infix
import Mathlib.Data.List.TakeWhile

namespace Verif.Proof.Indent

open Verif.Model Verif.Spec Verif.Spec.Indent

/-- Indentations of open blocks, the innermost first. -/
def levelsOf (s : IndentState) : List (List Nat) := s.valid :: s.stack.reverse

/-- Every indentation extends the previous one. -/
def Nested (levels : List (List Nat)) : Prop := levels.Pairwise fun a b => b <+: a ∧ b.length < a.length

/-- The state returned by `adjustIndent`. -/
def phaseOf (valid : List Nat) (stack : List (List Nat)) (current : List Nat) : IndentPhase :=
  if current.length > valid.length then
    if valid.isPrefixOf current then .incIndent else .invalidIndent
  else if current.isPrefixOf valid then
    if current.length = valid.length then .validIndent
    else if (stack.map List.length).contains current.length then .decIndent else .invalidIndent
  else .invalidIndent

theorem adjust_eq (s : IndentState) (c : List Nat) : adjustIndent s c =
    { s with current := s.current ++ c, phase := phaseOf s.valid s.stack (s.current ++ c) } := by
  unfold adjustIndent phaseOf
  by_cases h : s.current.length = 0
  · have : s.current = [] := List.eq_nil_of_length_eq_zero h
    simp only [this, List.length_nil, if_true, List.nil_append]
  · simp only [h, if_false]

theorem prefix_same_length {a b v : List Nat} (ha : a <+: v) (hb : b <+: v) (hl : a.length = b.length) : a = b := by
  obtain ⟨x, rfl⟩ := ha
  obtain ⟨y, hy⟩ := hb
  exact (List.append_inj hy.symm hl).1

theorem depth_append (a b : List Mark) (d : Nat) : depth (a ++ b) d = (depth a d).bind (depth b) := by
  induction a generalizing d with
  | nil => rfl
  | cons m a ih =>
    cases m with
    | orig t => simp only [List.cons_append, depth, ih]
    | opening => simp only [List.cons_append, depth, ih]
    | closing =>
      simp only [List.cons_append, depth]
      split
      · rfl
      · exact ih _

theorem depth_orig (ts : List Token) (d : Nat) : depth (ts.map .orig) d = some d := by
  induction ts with
  | nil => rfl
  | cons t ts ih => exact ih

theorem depth_closing (k d : Nat) (h : k ≤ d) : depth (List.replicate k .closing) d = some (d - k) := by
  induction k generalizing d with
  | zero => rfl
  | succ k ih =>
    rw [List.replicate_succ, depth, if_neg (by omega), ih _ (by omega)]
    congr 1; omega

theorem originals_append (a b : List Mark) : originals (a ++ b) = originals a ++ originals b := by
  induction a with
  | nil => rfl
  | cons m a ih => cases m <;> simp [originals, ih]

theorem originals_orig (ts : List Token) : originals (ts.map .orig) = ts := by
  induction ts with
  | nil => rfl
  | cons t ts ih => simp [originals, ih]

theorem originals_closing (k : Nat) : originals (List.replicate k .closing) = [] := by
  induction k with
  | zero => rfl
  | succ k ih => simpa [List.replicate_succ, originals] using ih

/-- The loop of `dedent`. -/
theorem dedentLoop_spec (t : Token) (c : List Nat) (pre post : List (List Nat))
    (hp : ∀ x ∈ post, x.length ≠ c.length) : ∀ k, k ≤ post.length → ∀ result,
    dedentLoop t c.length (pre ++ c :: post) (pre.length + 1 + k) result = (pre, result ++ List.replicate (k + 1) t)
  | 0, _, result => by
    rw [show pre.length + 1 + 0 = pre.length + 1 from rfl, dedentLoop]
    have : (pre ++ c :: post)[pre.length]? = some c := by simp
    simp only [this, Option.map_some, if_true]
    simp
  | k + 1, hk, result => by
    rw [show pre.length + 1 + (k + 1) = (pre.length + 1 + k) + 1 from rfl, dedentLoop]
    have : (pre ++ c :: post)[pre.length + 1 + k]? = some (post[k]'(by omega)) := by
      rw [List.getElem?_append_right (by omega), show pre.length + 1 + k - pre.length = k + 1 by omega,
        List.getElem?_cons_succ]
      simp
    simp only [this, Option.map_some, Option.some.injEq]
    rw [if_neg (hp _ (List.getElem_mem _)), dedentLoop_spec t c pre post hp k (by omega)]
    simp [List.replicate_succ]

/-- The phase describes the indentation of the current line. -/
theorem relevel_phase (s : IndentState) (hn : Nested (levelsOf s)) (w : List Nat) :
    match phaseOf s.valid s.stack w with
    | .validIndent => w = s.valid ∧ relevel w (levelsOf s) = some (levelsOf s, [])
    | .incIndent => s.valid <+: w ∧ s.valid.length < w.length ∧
      relevel w (levelsOf s) = some (w :: levelsOf s, [.opening])
    | .decIndent => ∃ pre post, s.stack = pre ++ w :: post ∧ (∀ x ∈ post, x.length ≠ w.length) ∧
      relevel w (levelsOf s) = some (w :: pre.reverse, List.replicate (post.length + 1) .closing)
    | .invalidIndent => relevel w (levelsOf s) = none
    | _ => False := by
  unfold Nested levelsOf at hn
  rw [List.pairwise_cons] at hn
  obtain ⟨hv, hst⟩ := hn
  unfold phaseOf levelsOf relevel
  by_cases h1 : w.length > s.valid.length
  · rw [if_pos h1]
    have hne : w ≠ s.valid := fun h => by rw [h] at h1; exact Nat.lt_irrefl _ h1
    by_cases h2 : s.valid <+: w
    · rw [if_pos (by simpa using h2)]
      exact ⟨h2, h1, by dsimp only; rw [if_neg hne, if_pos h2]⟩
    · rw [if_neg (by simpa using h2)]
      have h3 : w ∉ s.stack.reverse := fun h => by
        have := (hv w h).2; omega
      simp only [if_neg hne, if_neg h2, if_neg h3]
  · rw [if_neg h1]
    by_cases h2 : w <+: s.valid
    · rw [if_pos (by simpa using h2)]
      by_cases h3 : w.length = s.valid.length
      · rw [if_pos h3]
        have he : w = s.valid := h2.eq_of_length h3
        simp only [he, if_true, and_self]
      · rw [if_neg h3]
        have hne : w ≠ s.valid := fun h => h3 (by rw [h])
        have hnp : ¬ s.valid <+: w := fun h => h3 (le_antisymm h2.length_le h.length_le)
        by_cases h4 : (s.stack.map List.length).contains w.length = true
        · rw [if_pos h4]
          simp only [List.contains_eq_mem, List.mem_map, decide_eq_true_eq] at h4
          obtain ⟨e, he, hel⟩ := h4
          have hew : e = w := prefix_same_length (hv e (by simpa using he)).1 h2 hel
          subst hew
          obtain ⟨pre, post, hs⟩ := List.append_of_mem he
          have hpost : ∀ x ∈ post, x.length ≠ e.length := by
            rw [hs, List.reverse_append, List.reverse_cons, List.append_assoc, List.pairwise_append] at hst
            intro x hx
            have := (hst.2.2 x (by simpa using hx) e (by simp)).2
            omega
          refine ⟨pre, post, hs, hpost, ?_⟩
          have hmem : e ∈ s.stack.reverse := by simpa using he
          have hrev : s.valid :: s.stack.reverse = (s.valid :: post.reverse) ++ e :: pre.reverse := by
            rw [hs]; simp
          have hall : ∀ x ∈ s.valid :: post.reverse, decide (x ≠ e) = true := by
            intro x hx
            rcases List.mem_cons.mp hx with rfl | hx
            · simpa using hne.symm
            · have := hpost x (by simpa using hx)
              simp only [decide_eq_true_eq]
              intro h; exact this (by rw [h])
          simp only [if_neg hne, if_neg hnp, if_pos hmem]
          rw [hrev, List.dropWhile_append_of_pos hall, List.takeWhile_append_of_pos hall]
          simp
        · rw [if_neg h4]
          have h5 : w ∉ s.stack.reverse := fun h => h4 (by
            simp only [List.contains_eq_mem, List.mem_map, decide_eq_true_eq]
            exact ⟨w, by simpa using h, rfl⟩)
          simp only [if_neg hne, if_neg hnp, if_neg h5]
    · rw [if_neg (by simpa using h2)]
      have hne : w ≠ s.valid := fun h => h2 (by rw [h])
      have hnp : ¬ s.valid <+: w := fun h => h2 (by
        rw [h.eq_of_length (le_antisymm h.length_le (by omega))])
      have h5 : w ∉ s.stack.reverse := fun h => h2 (hv w h).1
      simp only [if_neg hne, if_neg hnp, if_neg h5]

/-- Changes of indentation are those of depth. -/
theorem relevel_depth {w : List Nat} {levels levels' : List (List Nat)} {marks : List Mark}
    (h : relevel w levels = some (levels', marks)) :
    depth marks (levels.length - 1) = some (levels'.length - 1) ∧ originals marks = [] ∧ levels' ≠ [] := by
  cases levels with
  | nil => simp [relevel] at h
  | cons v levels =>
    rw [relevel] at h
    split at h
    · cases h; exact ⟨rfl, rfl, by simp⟩
    · split at h
      · cases h; exact ⟨rfl, rfl, by simp⟩
      · split at h
        · next hw =>
          simp only [Option.some.injEq, Prod.mk.injEq] at h
          obtain ⟨rfl, rfl⟩ := h
          have hl : ((v :: levels).takeWhile (· ≠ w)).length + ((v :: levels).dropWhile (· ≠ w)).length = levels.length + 1 := by
            rw [← List.length_append, List.takeWhile_append_dropWhile, List.length_cons]
          have hd : (v :: levels).dropWhile (· ≠ w) ≠ [] := by
            rw [Ne, List.dropWhile_eq_nil_iff]
            intro h
            have := h w (by simp [hw])
            simp at this
          have hpos := List.length_pos_iff.mpr hd
          refine ⟨?_, originals_closing _, hd⟩
          rw [depth_closing _ _ (by simp only [List.length_cons]; omega)]
          simp only [List.length_cons]
          congr 1; omega
        · cases h

/-- What is emitted when an indentation is accepted. -/
def flush (l : IndentLayer) (s : IndentState) (tokens : List Token) : IndentState × Option (List Token) :=
  match s.phase with
  | .validIndent => let r := indentPad s tokens; (r.1, some r.2)
  | .incIndent => indentIndent l s tokens
  | .decIndent => indentDedent l s tokens
  | _ => ((indentPad s tokens).1, none)

variable {l : IndentLayer} {opened closed : Token}

theorem flush_spec (h1 : l.g.makeToken l.indentType [] = some opened) (h2 : l.g.makeToken l.dedentType [] = some closed)
    (s : IndentState) (hn : Nested (levelsOf s)) (hp : s.phase = phaseOf s.valid s.stack s.current) (tokens : List Token) :
    match relevel s.current (levelsOf s) with
    | none => s.phase = .invalidIndent
    | some (levels', marks) => s.phase ≠ .invalidIndent ∧ ∃ s', flush l s tokens = (s', some (marks.map (Mark.token opened closed) ++ s.spaces ++ tokens)) ∧
      levelsOf s' = levels' ∧ s'.spaces = [] ∧ Nested (levelsOf s') := by
  have key := relevel_phase s hn s.current
  rw [← hp] at key
  unfold flush
  cases hph : s.phase with
  | validIndent =>
    rw [hph] at key
    simp only at key
    rw [key.2]
    exact ⟨by simp, _, rfl, rfl, rfl, hn⟩
  | incIndent =>
    rw [hph] at key
    simp only at key
    obtain ⟨k1, k2, k3⟩ := key
    rw [k3]
    refine ⟨by simp, { s with stack := s.stack ++ [s.valid], valid := s.current, spaces := [] }, ?_, ?_, rfl, ?_⟩
    · simp only [indentIndent, indentPad, h1, Option.map_some, List.map_cons, List.map_nil, Mark.token,
        List.cons_append, List.nil_append]
    · simp [levelsOf]
    · unfold Nested levelsOf at hn ⊢
      simp only [List.reverse_append, List.reverse_cons, List.reverse_nil, List.nil_append, List.cons_append]
      rw [List.pairwise_cons]
      refine ⟨?_, hn⟩
      rw [List.pairwise_cons] at hn
      intro b hb
      rcases List.mem_cons.mp hb with rfl | hb
      · exact ⟨k1, k2⟩
      · exact ⟨(hn.1 b hb).1.trans k1, (hn.1 b hb).2.trans k2⟩
  | decIndent =>
    rw [hph] at key
    simp only at key
    obtain ⟨pre, post, k1, k2, k3⟩ := key
    rw [k3]
    refine ⟨by simp, { s with stack := pre, valid := s.current, spaces := [] }, ?_, ?_, rfl, ?_⟩
    · have := dedentLoop_spec closed s.current pre post k2 post.length (le_refl _) []
      have hl : s.stack.length = pre.length + 1 + post.length := by rw [k1]; simp; omega
      unfold indentDedent
      rw [h2]
      simp only
      rw [hl]
      conv_lhs => rw [show s.stack = pre ++ s.current :: post from k1]
      rw [this]
      simp [indentPad, Mark.token]
    · simp [levelsOf]
    · unfold Nested levelsOf at hn ⊢
      rw [List.pairwise_cons] at hn
      have := hn.2
      rw [k1, List.reverse_append, List.reverse_cons, List.append_assoc, List.pairwise_append] at this
      exact this.2.1
  | invalidIndent =>
    rw [hph] at key
    simp only at key
    rw [key]
  | indentSide =>
    rw [hph] at key
    exact absurd key (by simp)
  | indented =>
    rw [hph] at key
    exact absurd key (by simp)

/-- States of the layer that may appear. -/
structure SInv (l : IndentLayer) (s : IndentState) : Prop where
  nested : Nested (levelsOf s)
  body : s.phase = .indented → s.spaces = []
  start : s.phase ≠ .indented → s.phase ≠ .indentSide → s.phase = phaseOf s.valid s.stack s.current
  spaces : ∀ t ∈ s.spaces, l.role t = .space

theorem common_spec (h1 : l.g.makeToken l.indentType [] = some opened) (h2 : l.g.makeToken l.dedentType [] = some closed)
    (s : IndentState) (hn : Nested (levelsOf s)) (hp : s.phase = phaseOf s.valid s.stack s.current) (tok : Token) :
    match relevel s.current (levelsOf s) with
    | none => ∃ s', indentCommon l s tok = .fail s' 1
    | some (levels', marks) => ∃ s', indentCommon l s tok =
        .ret s' false (marks.map (Mark.token opened closed) ++ s.spaces ++ [tok]) ∧
      levelsOf s' = levels' ∧ s'.spaces = [] ∧ Nested (levelsOf s') ∧ s'.phase = .indented := by
  have key := flush_spec h1 h2 s hn hp [tok]
  have hnot : s.phase ≠ .indented ∧ s.phase ≠ .indentSide := by
    have := relevel_phase s hn s.current
    rw [← hp] at this
    constructor <;> (intro h; rw [h] at this; exact this)
  cases hr : relevel s.current (levelsOf s) with
  | none =>
    rw [hr] at key
    simp only at key ⊢
    exact ⟨_, by simp only [indentCommon, key]; rfl⟩
  | some r =>
    obtain ⟨levels', marks⟩ := r
    rw [hr] at key
    simp only at key ⊢
    obtain ⟨k1, s', k2, k3, k4, k5⟩ := key
    refine ⟨{ s' with phase := .indented }, ?_, k3, k4, k5, rfl⟩
    unfold flush at k2
    unfold indentCommon
    cases hph : s.phase with
    | validIndent =>
      simp only [hph, Prod.mk.injEq, Option.some.injEq] at k2 ⊢
      obtain ⟨e1, e2⟩ := k2
      rw [← e1, ← e2]
    | incIndent => simp only [hph] at k2 ⊢; rw [k2]
    | decIndent => simp only [hph] at k2 ⊢; rw [k2]
    | invalidIndent => exact absurd hph k1
    | indentSide => exact absurd hph hnot.2
    | indented => exact absurd hph hnot.1

theorem spaceNext_spec (h1 : l.g.makeToken l.indentType [] = some opened) (h2 : l.g.makeToken l.dedentType [] = some closed)
    (s : IndentState) (hn : Nested (levelsOf s)) (hp : s.phase = phaseOf s.valid s.stack s.current) (tok next : Token)
    (hnext : l.role next = .common) :
    match relevel s.current (levelsOf s) with
    | none => ∃ s', indentSpaceNext l s tok (some next) = .fail s' 1
    | some (levels', marks) => ∃ s', indentSpaceNext l s tok (some next) =
        .ret s' false (marks.map (Mark.token opened closed) ++ s.spaces ++ [tok]) ∧
      levelsOf s' = levels' ∧ s'.spaces = [] ∧ Nested (levelsOf s') ∧ s'.phase = .indented := by
  have key := flush_spec h1 h2 { s with spaces := s.spaces ++ [tok] } hn hp []
  have hnot : s.phase ≠ .indented ∧ s.phase ≠ .indentSide := by
    have := relevel_phase s hn s.current
    rw [← hp] at this
    constructor <;> (intro h; rw [h] at this; exact this)
  have hlev : levelsOf { s with spaces := s.spaces ++ [tok] } = levelsOf s := rfl
  rw [hlev] at key
  cases hr : relevel s.current (levelsOf s) with
  | none =>
    rw [hr] at key
    simp only at key ⊢
    refine ⟨(indentPad { s with spaces := s.spaces ++ [tok] } []).1, ?_⟩
    unfold indentSpaceNext
    simp only [hnext, ne_eq, not_true_eq_false, if_false, key]
  | some r =>
    obtain ⟨levels', marks⟩ := r
    rw [hr] at key
    simp only [List.append_nil] at key ⊢
    obtain ⟨k1, s', k2, k3, k4, k5⟩ := key
    refine ⟨{ s' with phase := .indented }, ?_, k3, k4, k5, rfl⟩
    unfold flush at k2
    unfold indentSpaceNext
    simp only [hnext, ne_eq, not_true_eq_false, if_false]
    cases hph : s.phase with
    | validIndent =>
      simp only [hph, Prod.mk.injEq, Option.some.injEq] at k2 ⊢
      obtain ⟨e1, e2⟩ := k2
      rw [← e1, e2, List.append_assoc]
    | incIndent => simp only [hph] at k2 ⊢; rw [k2]; simp
    | decIndent => simp only [hph] at k2 ⊢; rw [k2]; simp
    | invalidIndent => exact absurd hph k1
    | indentSide => exact absurd hph hnot.2
    | indented => exact absurd hph hnot.1

/-- The state before `PeekToken` is called for a space token. -/
theorem spaceState_spec {s s1 : IndentState} (hs : SInv l s) {tok : Token} (h : indentSpaceState s tok = some s1) :
    levelsOf s1 = levelsOf s ∧ s1.spaces = s.spaces ∧ s1.phase ≠ .indented ∧
    ((10 ∈ tok.content ∧ s1.current = (tok.content.reverse.takeWhile (· ≠ 10)).reverse ∧
        s1.phase = phaseOf s1.valid s1.stack s1.current ∧ s1.phase ≠ .indentSide) ∨
      (10 ∉ tok.content ∧ s.phase ≠ .indented ∧ s.phase ≠ .indentSide ∧ s1.current = s.current ++ tok.content ∧
        s1.phase = phaseOf s1.valid s1.stack s1.current ∧ s1.phase ≠ .indentSide) ∨
      (10 ∉ tok.content ∧ s.phase = .indentSide ∧ s1 = s)) := by
  have hne : ∀ v st c, phaseOf v st c ≠ .indented ∧ phaseOf v st c ≠ .indentSide := by
    intro v st c
    unfold phaseOf
    split
    · split <;> simp
    · split
      · split
        · simp
        · split <;> simp
      · simp
  unfold indentSpaceState stripNl at h
  by_cases hnl : 10 ∈ tok.content
  · simp only [hnl, if_true] at h
    rw [if_neg (by split <;> simp), if_pos (by split <;> simp), adjust_eq, Option.some.injEq] at h
    subst h
    exact ⟨rfl, rfl, (hne _ _ _).1, .inl ⟨hnl, rfl, rfl, (hne _ _ _).2⟩⟩
  · simp only [hnl, if_false, Bool.false_eq_true] at h
    split at h
    · cases h
    · next hp1 =>
      split at h
      · next hp2 =>
        rw [adjust_eq, Option.some.injEq] at h
        subst h
        exact ⟨rfl, rfl, (hne _ _ _).1, .inr (.inl ⟨hnl, hp1, hp2, rfl, rfl, (hne _ _ _).2⟩)⟩
      · next hp2 =>
        cases h
        exact ⟨rfl, rfl, hp1, .inr (.inr ⟨hnl, by simpa using hp2, rfl⟩)⟩

theorem spaceState_none {s : IndentState} {tok : Token} (h : indentSpaceState s tok = none) :
    s.phase = .indented ∧ 10 ∉ tok.content := by
  unfold indentSpaceState stripNl at h
  by_cases hnl : 10 ∈ tok.content
  · simp only [hnl, if_true] at h
    rw [if_neg (by split <;> simp), if_pos (by split <;> simp)] at h
    cases h
  · simp only [hnl, if_false, Bool.false_eq_true] at h
    by_cases hp : s.phase = .indented
    · exact ⟨hp, hnl⟩
    · rw [if_neg hp] at h
      split at h <;> simp at h

theorem levels_length (s : IndentState) : (levelsOf s).length - 1 = s.stack.length := by simp [levelsOf]

/-- One token (not the end of input), any token being seen ahead. -/
theorem step_any (h1 : l.g.makeToken l.indentType [] = some opened) (h2 : l.g.makeToken l.dedentType [] = some closed)
    {s s' : IndentState} (hs : SInv l s) {tok : Token} (hrole : l.role tok ≠ .eoi) {r : Except PErr (Option Token)}
    {emit : Bool} {extra : List Token} (h : answered r (indentHandle l s tok) = some (s', .ok (emit, extra))) :
    SInv l s' ∧ ∃ marks, (if emit then [tok] else []) ++ extra = marks.map (Mark.token opened closed) ∧
      depth marks s.stack.length = some s'.stack.length ∧
      (if l.role tok = .empty then originals marks = [tok] ∧ s'.spaces = s.spaces
        else s.spaces ++ [tok] = originals marks ++ s'.spaces) := by
  have pass : ∀ {s' emit extra}, some (s, Except.ok (true, ([] : List Token))) = some (s', (Except.ok (emit, extra) : Except Nat (Bool × List Token))) →
      (l.role tok = .empty ∨ s.spaces = []) →
      SInv l s' ∧ ∃ marks, (if emit then [tok] else []) ++ extra = marks.map (Mark.token opened closed) ∧
      depth marks s.stack.length = some s'.stack.length ∧
      (if l.role tok = .empty then originals marks = [tok] ∧ s'.spaces = s.spaces
        else s.spaces ++ [tok] = originals marks ++ s'.spaces) := by
    intro s' emit extra h he
    simp only [Option.some.injEq, Prod.mk.injEq, Except.ok.injEq] at h
    obtain ⟨rfl, rfl, rfl⟩ := h
    refine ⟨hs, [.orig tok], rfl, rfl, ?_⟩
    split
    · exact ⟨rfl, rfl⟩
    · next hne =>
      have := he.resolve_left hne
      simp [originals, this]
  have good : ∀ {s1 : IndentState} {levels' : List (List Nat)} {marks : List Mark}, levelsOf s1 = levelsOf s →
      relevel s1.current (levelsOf s1) = some (levels', marks) → s1.spaces = s.spaces → ∀ {s2 : IndentState},
      levelsOf s2 = levels' → s2.spaces = [] → Nested (levelsOf s2) → s2.phase = .indented →
      l.role tok ≠ .empty → ∀ {prog}, prog = .ret s2 false (marks.map (Mark.token opened closed) ++ s1.spaces ++ [tok]) →
      answered r prog = some (s', .ok (emit, extra)) →
      SInv l s' ∧ ∃ marks, (if emit then [tok] else []) ++ extra = marks.map (Mark.token opened closed) ∧
      depth marks s.stack.length = some s'.stack.length ∧
      (if l.role tok = .empty then originals marks = [tok] ∧ s'.spaces = s.spaces
        else s.spaces ++ [tok] = originals marks ++ s'.spaces) := by
    intro s1 levels' marks e1 e2 e3 s2 e4 e5 e6 e7 hne prog hp h
    subst hp
    simp only [answered, Option.some.injEq, Prod.mk.injEq, Except.ok.injEq] at h
    obtain ⟨rfl, rfl, rfl⟩ := h
    obtain ⟨d1, d2, -⟩ := relevel_depth e2
    rw [e1, levels_length, ← e4, levels_length] at d1
    refine ⟨⟨e6, fun _ => e5, fun h => absurd e7 h, by rw [e5]; simp⟩, marks ++ s.spaces.map .orig ++ [.orig tok], ?_, ?_, ?_⟩
    · simp [e3, Mark.token, Function.comp_def]
    · rw [depth_append, depth_append, d1]
      simp only [Option.bind_some, depth_orig]
      rfl
    · rw [if_neg hne, originals_append, originals_append, d2, originals_orig, e5]
      simp [originals]
  unfold indentHandle at h
  cases hr : l.role tok with
  | eoi => exact absurd hr hrole
  | empty =>
    rw [hr] at h
    have := pass h (.inl hr)
    simpa [hr] using this
  | common =>
    rw [hr] at h
    rw [← hr]
    simp only at h
    by_cases hp : s.phase = .indented
    · have : indentCommon l s tok = .ret s true [] := by unfold indentCommon; rw [hp]
      rw [this] at h
      exact pass h (.inr (hs.body hp))
    by_cases hp' : s.phase = .indentSide
    · have : ∃ s', indentCommon l s tok = .fail s' 1 := ⟨_, by unfold indentCommon; rw [hp']⟩
      obtain ⟨s', e⟩ := this
      rw [e] at h
      simp [answered] at h
    have key := common_spec h1 h2 s hs.nested (hs.start hp hp') tok
    cases hrel : relevel s.current (levelsOf s) with
    | none =>
      rw [hrel] at key
      obtain ⟨s', e⟩ := key
      rw [e] at h
      simp [answered] at h
    | some x =>
      rw [hrel] at key
      obtain ⟨s2, e, e4, e5, e6, e7⟩ := key
      exact good rfl hrel rfl e4 e5 e6 e7 (by rw [hr]; simp) e h
  | side =>
    rw [hr] at h
    simp only at h
    unfold indentSideToken at h
    by_cases hp : s.phase = .indented
    · rw [if_pos hp] at h
      have := pass h (.inr (hs.body hp))
      simpa [hr] using this
    · rw [if_neg hp] at h
      simp only [answered] at h
      have out : ∀ {s' emit extra}, some ({ s with phase := .indentSide, spaces := [] }, Except.ok (false, s.spaces ++ [tok])) =
            some (s', (Except.ok (emit, extra) : Except Nat (Bool × List Token))) →
          SInv l s' ∧ ∃ marks, (if emit then [tok] else []) ++ extra = marks.map (Mark.token opened closed) ∧
          depth marks s.stack.length = some s'.stack.length ∧
          (if IndentRole.side = .empty then originals marks = [tok] ∧ s'.spaces = s.spaces
            else s.spaces ++ [tok] = originals marks ++ s'.spaces) := by
        intro s' emit extra h
        simp only [Option.some.injEq, Prod.mk.injEq, Except.ok.injEq] at h
        obtain ⟨rfl, rfl, rfl⟩ := h
        refine ⟨⟨hs.nested, by simp, by simp, by simp⟩, (s.spaces ++ [tok]).map .orig, ?_, depth_orig _ _, ?_⟩
        · simp [Mark.token, Function.comp_def]
        · rw [if_neg (by simp), originals_orig]; simp
      match r with
      | .error e => simp [answered] at h
      | .ok none => exact out h
      | .ok (some next) =>
        simp only at h
        split at h
        · exact out h
        · simp [answered] at h
  | space =>
    rw [hr] at h
    simp only at h
    unfold indentSpace at h
    cases hst : indentSpaceState s tok with
    | none =>
      rw [hst] at h
      simp only [answered] at h
      have := pass h (.inr (hs.body (spaceState_none hst).1))
      simpa [hr] using this
    | some s1 =>
      rw [hst] at h
      simp only [answered] at h
      obtain ⟨k1, k2, k3, k4⟩ := spaceState_spec hs hst
      match r with
      | .error e => simp [answered] at h
      | .ok none => simp [answered, indentSpaceNext] at h
      | .ok (some next) =>
        simp only at h
        by_cases hnext : l.role next = .common
        · rcases k4 with ⟨-, -, k5, k6⟩ | ⟨-, -, -, -, k5, k6⟩ | ⟨-, k5, rfl⟩
          · have key := spaceNext_spec h1 h2 s1 (k1 ▸ hs.nested) k5 tok next hnext
            cases hrel : relevel s1.current (levelsOf s1) with
            | none =>
              rw [hrel] at key
              obtain ⟨s', e⟩ := key
              rw [e] at h
              simp [answered] at h
            | some x =>
              rw [hrel] at key
              obtain ⟨s2, e, e4, e5, e6, e7⟩ := key
              have := good k1 hrel k2 e4 e5 e6 e7 (by rw [hr]; simp) e h
              simpa [hr] using this
          · have key := spaceNext_spec h1 h2 s1 (k1 ▸ hs.nested) k5 tok next hnext
            cases hrel : relevel s1.current (levelsOf s1) with
            | none =>
              rw [hrel] at key
              obtain ⟨s', e⟩ := key
              rw [e] at h
              simp [answered] at h
            | some x =>
              rw [hrel] at key
              obtain ⟨s2, e, e4, e5, e6, e7⟩ := key
              have := good k1 hrel k2 e4 e5 e6 e7 (by rw [hr]; simp) e h
              simpa [hr] using this
          · unfold indentSpaceNext at h
            simp only [hnext, ne_eq, not_true_eq_false, if_false, k5, answered] at h
            simp at h
        · unfold indentSpaceNext at h
          simp only [ne_eq, hnext, not_false_eq_true, if_true, answered, Option.some.injEq, Prod.mk.injEq,
            Except.ok.injEq] at h
          obtain ⟨rfl, rfl, rfl⟩ := h
          have hst' : s1.stack.length = s.stack.length := by rw [← levels_length, ← levels_length, k1]
          refine ⟨⟨?_, fun h => absurd h k3, ?_, ?_⟩, [], by simp, ?_, ?_⟩
          · have : levelsOf { s1 with spaces := s1.spaces ++ [tok] } = levelsOf s := k1
            rw [this]; exact hs.nested
          · intro hp hp'
            rcases k4 with ⟨-, -, k5, -⟩ | ⟨-, -, -, -, k5, -⟩ | ⟨-, k5, rfl⟩
            · exact k5
            · exact k5
            · exact absurd k5 hp'
          · intro t ht
            simp only [k2, List.mem_append, List.mem_singleton] at ht
            rcases ht with ht | rfl
            · exact hs.spaces t ht
            · exact hr
          · simp [depth, hst']
          · rw [if_neg (by simp)]
            simp [originals, k2]

/-- How states of the layer correspond to reading lines: `pending` are spaces not emitted, `pre` is what the layer has
emitted too early (knowing the next token). -/
inductive Rel (l : IndentLayer) (opened closed : Token) (ts : List Token) (s : IndentState) (ln : Lines) :
    List Token → List Token → Prop
  | body : s.phase = .indented → ln.place = .body → ln.levels = levelsOf s → Rel l opened closed ts s ln [] []
  | ahead {pending marks} : s.phase = .indented → ln.place = .start → relevel ln.indent ln.levels = some (levelsOf s, marks) →
      (∃ t us, ts = t :: us ∧ l.role t = .common) →
      Rel l opened closed ts s ln pending (marks.map (Mark.token opened closed) ++ pending)
  | start : s.phase ≠ .indented → s.phase ≠ .indentSide → ln.place = .start → ln.indent = s.current →
      ln.levels = levelsOf s → Rel l opened closed ts s ln s.spaces []
  | side : s.phase = .indentSide → ln.place = .sides → ln.levels = levelsOf s → Rel l opened closed ts s ln s.spaces []

/-- Roles in the list are roles of tokens that have text. -/
def PlainRoles (l : IndentLayer) : Prop := ∀ r ∈ l.roles, r ≠ .eoi ∧ r ≠ .empty

theorem role_text (hp : PlainRoles l) {t : Token} (ht : t.type ≠ eoiTokenType) (h : ¬ (t.type < 0 ∨ t.content.length = 0)) :
    l.role t ≠ .eoi ∧ l.role t ≠ .empty := by
  unfold IndentLayer.role
  rw [if_neg ht, if_neg h]
  split
  · cases hk : l.roles[t.type.toNat]? with
    | none => simp
    | some r => exact hp r (List.mem_of_getElem? hk)
  · simp

theorem role_eoi (hp : PlainRoles l) {t : Token} : l.role t = .eoi ↔ t.type = eoiTokenType := by
  constructor
  · intro h
    by_contra ht
    by_cases h' : t.type < 0 ∨ t.content.length = 0
    · unfold IndentLayer.role at h
      rw [if_neg ht, if_pos h'] at h
      cases h
    · exact (role_text hp ht h').1 h
  · intro h
    unfold IndentLayer.role
    rw [if_pos h]

theorem role_type (hp : PlainRoles l) {t : Token} (h : l.role t = .eoi) : t.type < 0 := by
  rw [(role_eoi hp).1 h]; decide

theorem role_nonneg {t : Token} (h1 : l.role t ≠ .eoi) (h2 : l.role t ≠ .empty) : ¬ t.type < 0 := by
  unfold IndentLayer.role at h1 h2
  split at h1
  · simp at h1
  · next hn =>
    rw [if_neg hn] at h2
    split at h2
    · simp at h2
    · next h => omega

/-- The result of the rest of tokens with something emitted before. -/
theorem feed_cons {s s1 : IndentState} {t : Token} {ts : List Token} {r : Bool × List Token}
    (h : answered (.ok ts.head?) (indentHandle l s t) = some (s1, .ok r)) (role : Token → IndentRole) (ln : Lines)
    (pending pre : List Token) (first : List Mark)
    (ih : match layout role ln pending ts with
      | none => feed l s1 ts = some (.error 1)
      | some marks => ∃ s' out, feed l s1 ts = some (.ok (s', out)) ∧ pre ++ out = marks.map (Mark.token opened closed))
    (pre0 : List Token) (he : pre0 ++ emitted t r = first.map (Mark.token opened closed) ++ pre) :
    match (layout role ln pending ts).map (first ++ ·) with
      | none => feed l s (t :: ts) = some (.error 1)
      | some marks => ∃ s' out, feed l s (t :: ts) = some (.ok (s', out)) ∧ pre0 ++ out = marks.map (Mark.token opened closed) := by
  cases hl : layout role ln pending ts with
  | none =>
    rw [hl] at ih
    simp only at ih
    simp only [Option.map_none]
    rw [feed, h]
    simp only [ih]
  | some marks =>
    rw [hl] at ih
    obtain ⟨s', out, e1, e2⟩ := ih
    simp only [Option.map_some]
    refine ⟨s', emitted t r ++ out, ?_, ?_⟩
    · rw [feed, h]; simp only [e1]
    · rw [← List.append_assoc, he, List.append_assoc, e2, List.map_append]

theorem feed_fail {s s1 : IndentState} {t : Token} {ts : List Token}
    (h : answered (.ok ts.head?) (indentHandle l s t) = some (s1, .error 1)) : feed l s (t :: ts) = some (.error 1) := by
  rw [feed, h]

/-- The layer does what it must do if it sees tokens ahead correctly. -/
theorem feed_layout (hp : PlainRoles l) (h1 : l.g.makeToken l.indentType [] = some opened) (h2 : l.g.makeToken l.dedentType [] = some closed) :
    ∀ (ts : List Token) (s : IndentState) (ln : Lines) (pending pre : List Token), SInv l s →
      Rel l opened closed ts s ln pending pre → (∀ us t, ts = us ++ [t] → l.role t = .eoi) →
      match layout l.role ln pending ts with
      | none => feed l s ts = some (.error 1)
      | some marks => ∃ s' out, feed l s ts = some (.ok (s', out)) ∧ pre ++ out = marks.map (Mark.token opened closed)
  | [], s, ln, pending, pre, hs, hrel, _ => by
    simp only [layout]
    refine ⟨s, [], rfl, ?_⟩
    cases hrel with
    | ahead _ _ _ h => obtain ⟨t, us, h, -⟩ := h; cases h
    | body => rfl
    | start => rfl
    | side => rfl
  | t :: ts, s, ln, pending, pre, hs, hrel, hend => by
    have hend' : ∀ us u, ts = us ++ [u] → l.role u = .eoi := fun us u h => hend (t :: us) u (by rw [h]; rfl)
    have hnext : l.role t ≠ .eoi → ∃ u us, ts = u :: us := by
      intro hne
      cases ts with
      | nil => exact absurd (hend [] t rfl) hne
      | cons u us => exact ⟨u, us, rfl⟩
    rw [layout]
    cases hr : l.role t with
    | empty =>
      rw [if_pos rfl]
      have ha : answered (.ok ts.head?) (indentHandle l s t) = some (s, .ok (true, [])) := by
        unfold indentHandle; rw [hr]; rfl
      cases hrel with
      | body a b c => exact feed_cons ha l.role ln _ [] [.orig t] (feed_layout hp h1 h2 ts s ln _ _ hs (.body a b c) hend') [] rfl
      | ahead a b c d => obtain ⟨u, us, e, e'⟩ := d; cases e; rw [hr] at e'; cases e'
      | start a b c d e =>
        exact feed_cons ha l.role ln _ [] [.orig t] (feed_layout hp h1 h2 ts s ln _ _ hs (.start a b c d e) hend') [] rfl
      | side a b c => exact feed_cons ha l.role ln _ [] [.orig t] (feed_layout hp h1 h2 ts s ln _ _ hs (.side a b c) hend') [] rfl
    | eoi =>
      rw [if_neg (by simp), if_pos rfl]
      have ha : answered (.ok ts.head?) (indentHandle l s t) =
          some ({ s with spaces := [] }, .ok (false, List.replicate s.stack.length closed ++ s.spaces ++ [t])) := by
        unfold indentHandle; rw [hr]; simp [indentEoi, h2, answered, indentPad]
      have hs' : SInv l { s with spaces := [] } := ⟨hs.nested, fun _ => rfl, hs.start, by simp⟩
      have hlt := role_type hp hr
      have hout : ∀ pending : List Token, ln.levels = levelsOf s → pending = s.spaces → [] ++ emitted t (false, List.replicate s.stack.length closed ++ s.spaces ++ [t]) =
          (List.replicate (ln.levels.length - 1) Mark.closing ++ pending.map Mark.orig ++ [Mark.orig t, Mark.orig t]).map (Mark.token opened closed) ++ [] := by
        intro pending h h'
        rw [h, levels_length, h']
        simp [emitted, hlt, Mark.token, Function.comp_def]
      cases hrel with
      | body a b c =>
        exact feed_cons ha l.role ln _ [] _ (feed_layout hp h1 h2 ts _ ln _ _ hs' (.body a b c) hend') []
          (hout [] c (hs.body a).symm)
      | ahead a b c d => obtain ⟨u, us, e, e'⟩ := d; cases e; rw [hr] at e'; cases e'
      | start a b c d e =>
        exact feed_cons ha l.role ln _ [] _ (feed_layout hp h1 h2 ts _ ln [] [] hs' (.start a b c d e) hend') [] (hout _ e rfl)
      | side a b c =>
        exact feed_cons ha l.role ln _ [] _ (feed_layout hp h1 h2 ts _ ln [] [] hs' (.side a b c) hend') [] (hout _ c rfl)
    | side =>
      rw [if_neg (by simp), if_neg (by simp)]
      obtain ⟨u, us, rfl⟩ := hnext (by rw [hr]; simp)
      have hpos := role_nonneg (l := l) (t := t) (by rw [hr]; simp) (by rw [hr]; simp)
      simp only [Lines.read, hr, Option.bind_some, reduceCtorEq, false_and, if_false]
      cases hrel with
      | body a b c =>
        have ha : answered (.ok (u :: us).head?) (indentHandle l s t) = some (s, .ok (true, [])) := by
          unfold indentHandle; rw [hr]; simp only [indentSideToken, a, if_true]; rfl
        simp only [b, reduceCtorEq, if_false]
        have hln : { levels := ln.levels, indent := ln.indent, place := Place.body : Lines } = ln := by
          rw [← b]
        rw [hln]
        exact feed_cons ha l.role ln [] [] [.orig t] (feed_layout hp h1 h2 (u :: us) s ln _ _ hs (.body a b c) hend') [] rfl
      | ahead a b c d => obtain ⟨u, us, e, e'⟩ := d; cases e; rw [hr] at e'; cases e'
      | start a b c d e =>
        simp only [c, if_true]
        by_cases hc : l.role u = .common
        · have ha : answered (.ok (u :: us).head?) (indentHandle l s t) = some ({ s with phase := .indentSide }, .error 1) := by
            unfold indentHandle; rw [hr]; simp only [indentSideToken, a, if_false, answered, List.head?_cons, hc, ne_eq,
              not_true_eq_false]
          have hnone : layout l.role { levels := ln.levels, indent := ln.indent, place := Place.sides } [] (u :: us) = none := by
            simp [layout, hc, Lines.read]
          rw [hnone]
          exact feed_fail ha
        · have ha : answered (.ok (u :: us).head?) (indentHandle l s t) =
              some ({ s with phase := .indentSide, spaces := [] }, .ok (false, s.spaces ++ [t])) := by
            unfold indentHandle; rw [hr]; simp only [indentSideToken, a, if_false, answered, List.head?_cons, hc, ne_eq,
              not_false_eq_true, if_true, indentPad]
          refine feed_cons ha l.role _ [] [] _ (feed_layout hp h1 h2 (u :: us) _
            { levels := ln.levels, indent := ln.indent, place := Place.sides } [] []
            ⟨hs.nested, by simp, by simp, by simp⟩ (.side rfl rfl e) hend') [] ?_
          simp [emitted, hpos, Mark.token, Function.comp_def]
      | side a b c =>
        simp only [b, reduceCtorEq, if_false]
        by_cases hc : l.role u = .common
        · have ha : answered (.ok (u :: us).head?) (indentHandle l s t) = some ({ s with phase := .indentSide }, .error 1) := by
            unfold indentHandle; rw [hr]; simp only [indentSideToken, a, reduceCtorEq, if_false, answered, List.head?_cons,
              hc, ne_eq, not_true_eq_false]
          have hnone : layout l.role { levels := ln.levels, indent := ln.indent, place := Place.sides } [] (u :: us) = none := by
            simp [layout, hc, Lines.read]
          rw [hnone]
          exact feed_fail ha
        · have ha : answered (.ok (u :: us).head?) (indentHandle l s t) =
              some ({ s with phase := .indentSide, spaces := [] }, .ok (false, s.spaces ++ [t])) := by
            unfold indentHandle; rw [hr]; simp only [indentSideToken, a, reduceCtorEq, if_false, answered, List.head?_cons,
              hc, ne_eq, not_false_eq_true, if_true, indentPad]
          refine feed_cons ha l.role _ [] [] _ (feed_layout hp h1 h2 (u :: us) _
            { levels := ln.levels, indent := ln.indent, place := Place.sides } [] []
            ⟨hs.nested, by simp, by simp, by simp⟩ (.side rfl rfl c) hend') [] ?_
          simp [emitted, hpos, Mark.token, Function.comp_def]
    | common =>
      rw [if_neg (by simp), if_neg (by simp)]
      obtain ⟨u, us, rfl⟩ := hnext (by rw [hr]; simp)
      have hpos := role_nonneg (l := l) (t := t) (by rw [hr]; simp) (by rw [hr]; simp)
      simp only [Lines.read, hr]
      cases hrel with
      | body a b c =>
        have ha : answered (.ok (u :: us).head?) (indentHandle l s t) = some (s, .ok (true, [])) := by
          unfold indentHandle; rw [hr]; simp only [indentCommon, a]; rfl
        simp only [b, Option.bind_some, reduceCtorEq, false_and, if_false]
        exact feed_cons ha l.role ln [] [] [.orig t] (feed_layout hp h1 h2 (u :: us) s ln _ _ hs (.body a b c) hend') [] rfl
      | @ahead pending marks a b c d =>
        have ha : answered (.ok (u :: us).head?) (indentHandle l s t) = some (s, .ok (true, [])) := by
          unfold indentHandle; rw [hr]; simp only [indentCommon, a]; rfl
        simp only [b, c, Option.map_some, Option.bind_some, reduceCtorEq, false_and, if_false]
        refine feed_cons ha l.role _ [] [] _ (feed_layout hp h1 h2 (u :: us) s _ [] [] hs (.body a rfl rfl) hend') _ ?_
        simp [emitted, Mark.token, Function.comp_def]
      | start a b c d e =>
        simp only [c]
        have key := common_spec h1 h2 s hs.nested (hs.start a b) t
        rw [d, e]
        cases hrel : relevel s.current (levelsOf s) with
        | none =>
          rw [hrel] at key
          obtain ⟨s', e⟩ := key
          simp only [Option.map_none, Option.bind_none]
          exact feed_fail (s1 := s') (by unfold indentHandle; rw [hr]; simp only [e]; rfl)
        | some x =>
          rw [hrel] at key
          obtain ⟨s2, f, e4, e5, e6, e7⟩ := key
          have ha : answered (.ok (u :: us).head?) (indentHandle l s t) =
              some (s2, .ok (false, x.2.map (Mark.token opened closed) ++ s.spaces ++ [t])) := by
            unfold indentHandle; rw [hr]; simp only [f]; rfl
          simp only [Option.map_some, Option.bind_some, reduceCtorEq, false_and, if_false]
          refine feed_cons ha l.role _ [] [] _ (feed_layout hp h1 h2 (u :: us) s2 _ [] []
            ⟨e6, fun _ => e5, fun h => absurd e7 h, by rw [e5]; simp⟩ (.body e7 rfl e4.symm) hend') [] ?_
          simp [emitted, hpos, Mark.token, Function.comp_def]
      | side a b c =>
        simp only [b, Option.bind_none]
        exact feed_fail (s1 := (indentPad s [t]).1) (by unfold indentHandle; rw [hr]; simp only [indentCommon, a]; rfl)
    | space =>
      rw [if_neg (by simp), if_neg (by simp)]
      obtain ⟨u, us, rfl⟩ := hnext (by rw [hr]; simp)
      have hpos := role_nonneg (l := l) (t := t) (by rw [hr]; simp) (by rw [hr]; simp)
      cases hst : indentSpaceState s t with
      | none =>
        obtain ⟨a, hnl⟩ := spaceState_none hst
        have ha : answered (.ok (u :: us).head?) (indentHandle l s t) = some (s, .ok (true, [])) := by
          unfold indentHandle; rw [hr]; simp only [indentSpace, hst]; rfl
        cases hrel with
        | body a b c =>
          simp only [Lines.read, hr, hnl, if_false, b, reduceCtorEq, Option.bind_some, ne_eq, not_true_eq_false, and_false]
          exact feed_cons ha l.role ln [] [] [.orig t] (feed_layout hp h1 h2 (u :: us) s ln _ _ hs (.body a b c) hend') [] rfl
        | ahead a b c d => obtain ⟨u, us, e, e'⟩ := d; cases e; rw [hr] at e'; cases e'
        | start a' => exact absurd a a'
        | side a' => rw [a] at a'; cases a'
      | some s1 =>
        obtain ⟨k1, k2, k3, k4⟩ := spaceState_spec hs hst
        have hh : ∀ prog, indentSpaceNext l s1 t (some u) = prog →
            answered (.ok (u :: us).head?) (indentHandle l s t) = answered (.ok (some u)) prog := by
          intro prog hp
          unfold indentHandle; rw [hr]; simp only [indentSpace, hst, answered, List.head?_cons, hp]
        -- the state after the token if nothing is emitted
        have hs1 : SInv l { s1 with spaces := s1.spaces ++ [t] } := by
          refine ⟨?_, fun h => absurd h k3, ?_, ?_⟩
          · have : levelsOf { s1 with spaces := s1.spaces ++ [t] } = levelsOf s := k1
            rw [this]; exact hs.nested
          · intro hp hp'
            rcases k4 with ⟨-, -, k5, -⟩ | ⟨-, -, -, -, k5, -⟩ | ⟨-, k5, rfl⟩
            · exact k5
            · exact k5
            · exact absurd k5 hp'
          · intro x hx
            simp only [k2, List.mem_append, List.mem_singleton] at hx
            rcases hx with hx | rfl
            · exact hs.spaces x hx
            · exact hr
        have hpend : s.phase ≠ .indented → pending = s.spaces ∧ pre = [] := by
          intro h
          cases hrel with
          | body a => exact absurd a h
          | ahead a => exact absurd a h
          | start => exact ⟨rfl, rfl⟩
          | side => exact ⟨rfl, rfl⟩
        have hpend' : pending = s.spaces ∧ pre = [] := by
          by_cases h : s.phase = .indented
          · cases hrel with
            | body a => exact ⟨(hs.body a).symm, rfl⟩
            | ahead a b c d => obtain ⟨u, us, e, e'⟩ := d; cases e; rw [hr] at e'; cases e'
            | start a => exact absurd h a
            | side a => rw [h] at a; cases a
          · exact hpend h
        have hlev : ln.levels = levelsOf s := by
          cases hrel with
          | body a b c => exact c
          | ahead a b c d => obtain ⟨u, us, e, e'⟩ := d; cases e; rw [hr] at e'; cases e'
          | start a b c d e => exact e
          | side a b c => exact c
        obtain ⟨rfl, rfl⟩ := hpend'
        -- the state of reading after the token
        have hread : ∃ ln1, ln.read l.role t = some (ln1, []) ∧ ln1.levels = levelsOf s1 ∧
            ((ln1.place = .start ∧ ln1.indent = s1.current ∧ s1.phase = phaseOf s1.valid s1.stack s1.current ∧
                s1.phase ≠ .indentSide) ∨
              (ln1.place = .sides ∧ s1.phase = .indentSide)) := by
          rw [k1, ← hlev]
          rcases k4 with ⟨k5, k6, k7, k8⟩ | ⟨k5, k6, k7, k8, k9, k10⟩ | ⟨k5, k6, rfl⟩
          · exact ⟨{ ln with indent := (t.content.reverse.takeWhile (· ≠ 10)).reverse, place := .start },
              by simp only [Lines.read, hr, k5, if_true], rfl, .inl ⟨rfl, k6.symm, k7, k8⟩⟩
          · have hst' : ln.place = .start ∧ ln.indent = s.current := by
              generalize hpd : s.spaces = pd at hrel
              generalize hpr : ([] : List Token) = pr at hrel
              cases hrel with
              | body a => exact absurd a k6
              | ahead a => exact absurd a k6
              | start a b c d e => exact ⟨c, d⟩
              | side a => exact absurd a k7
            refine ⟨{ ln with indent := ln.indent ++ t.content }, by simp only [Lines.read, hr, k5, if_false, hst'.1, if_true],
              rfl, .inl ⟨hst'.1, ?_, k9, k10⟩⟩
            rw [k8, hst'.2]
          · have hst' : ln.place = .sides := by
              generalize hpd : s1.spaces = pd at hrel
              generalize hpr : ([] : List Token) = pr at hrel
              cases hrel with
              | body a => rw [k6] at a; cases a
              | ahead a => rw [k6] at a; cases a
              | start a b => exact absurd k6 b
              | side a b => exact b
            exact ⟨ln, by simp only [Lines.read, hr, k5, if_false, hst', reduceCtorEq], rfl, .inr ⟨hst', k6⟩⟩
        obtain ⟨ln1, r1, r2, r3⟩ := hread
        rw [r1]
        have hplace : ln1.place ≠ .body := by rcases r3 with ⟨h, -⟩ | ⟨h, -⟩ <;> rw [h] <;> simp
        simp only [Option.bind_some, ne_eq, hplace, not_false_eq_true, and_self, if_true]
        by_cases hc : l.role u = .common
        · rcases r3 with ⟨p1, p2, p3, p4⟩ | ⟨p1, p2⟩
          · have key := spaceNext_spec h1 h2 s1 (k1 ▸ hs.nested) p3 t u hc
            cases hrl : relevel s1.current (levelsOf s1) with
            | none =>
              rw [hrl] at key
              obtain ⟨s', e⟩ := key
              have hnone : layout l.role ln1 (s.spaces ++ [t]) (u :: us) = none := by
                simp [layout, hc, Lines.read, p1, p2, r2, hrl]
              rw [hnone]
              exact feed_fail (s1 := s') (by rw [hh _ e]; rfl)
            | some x =>
              rw [hrl] at key
              obtain ⟨s2, f, e4, e5, e6, e7⟩ := key
              have ha : answered (.ok (u :: us).head?) (indentHandle l s t) =
                  some (s2, .ok (false, x.2.map (Mark.token opened closed) ++ s1.spaces ++ [t])) := by
                rw [hh _ f]; rfl
              have := feed_cons ha l.role ln1 (s.spaces ++ [t]) _ [] (feed_layout hp h1 h2 (u :: us) s2 ln1 _ _
                ⟨e6, fun _ => e5, fun h => absurd e7 h, by rw [e5]; simp⟩
                (.ahead e7 p1 (marks := x.2) (by rw [p2, r2, hrl, e4]) ⟨u, us, rfl, hc⟩) hend') []
                (by simp [emitted, hpos, k2])
              simpa using this
          · have hf : indentSpaceNext l s1 t (some u) = .fail (indentPad { s1 with spaces := s1.spaces ++ [t] } []).1 1 := by
              unfold indentSpaceNext; simp only [hc, ne_eq, not_true_eq_false, if_false, p2]
            have hnone : layout l.role ln1 (s.spaces ++ [t]) (u :: us) = none := by
              simp [layout, hc, Lines.read, p1]
            rw [hnone]
            exact feed_fail (by rw [hh _ hf]; rfl)
        · have hf : indentSpaceNext l s1 t (some u) = .ret { s1 with spaces := s1.spaces ++ [t] } false [] := by
            unfold indentSpaceNext; simp only [hc, ne_eq, not_false_eq_true, if_true]
          have ha : answered (.ok (u :: us).head?) (indentHandle l s t) =
              some ({ s1 with spaces := s1.spaces ++ [t] }, .ok (false, [])) := by
            rw [hh _ hf]; rfl
          have hrel1 : Rel l opened closed (u :: us) { s1 with spaces := s1.spaces ++ [t] } ln1 (s.spaces ++ [t]) [] := by
            rw [← k2]
            rcases r3 with ⟨p1, p2, p3, p4⟩ | ⟨p1, p2⟩
            · exact .start k3 p4 p1 p2 r2
            · exact .side p2 p1 r2
          have := feed_cons ha l.role ln1 (s.spaces ++ [t]) _ [] (feed_layout hp h1 h2 (u :: us) _ ln1 _ _ hs1 hrel1 hend') []
                (by simp [emitted, hpos])
          simpa using this

end Verif.Proof.Indent
