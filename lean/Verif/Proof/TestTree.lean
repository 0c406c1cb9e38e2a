/-
Lemmas about the tree validator: what has been read so far.
-/
import Verif.Spec.TestTree

namespace Verif.Proof.TestTree

open Verif.Model Verif.Model.TestTree Verif.Spec.TestTree
open Verif.Spec (Item)

theorem unquote_iff (w n : List Nat) (h1 : w ≠ [40]) (h2 : w ≠ [41]) : unquote w = some n ↔ Means w n := by
  rw [unquote, Means]
  cases w with
  | nil => simp [Go.index]
  | cons c w =>
    simp only [Go.index, Int.le_refl, if_true, Int.toNat_zero, List.getElem?_cons_zero, Option.bind_some]
    by_cases hc : c = 39
    · subst hc
      simp only [if_true]
      rcases List.eq_nil_or_concat w with rfl | ⟨w', q, rfl⟩
      · simp [Go.slice]
      · simp only [List.concat_eq_append]
        have : Go.slice (39 :: (w' ++ [q])) 1 (((39 :: (w' ++ [q])).length : Int) - 1) = some w' := by
          rw [Go.slice, if_pos (by simp)]
          simp
        rw [this]
        constructor
        · rintro h
          cases h
          exact .inl ⟨q, rfl⟩
        · rintro (⟨q', h⟩ | ⟨-, -, h, -⟩)
          · simp only [List.cons.injEq, true_and] at h
            have := List.append_inj' h rfl
            rw [this.1]
          · simp at h
    · rw [if_neg hc]
      constructor
      · intro h
        cases h
        exact .inr ⟨rfl, by simp, by simpa using hc, h1, h2⟩
      · rintro (⟨q', h⟩ | ⟨h, -⟩)
        · simp only [List.cons.injEq] at h
          exact absurd h.1 hc
        · rw [h]

theorem means_ne {w n : List Nat} (h : Means w n) : w ≠ [40] ∧ w ≠ [41] := by
  rcases h with ⟨q, rfl⟩ | ⟨-, -, -, h⟩
  · simp
  · exact h

theorem wordsOf_append : ∀ ps qs : List Pat, wordsOf (ps ++ qs) = wordsOf ps ++ wordsOf qs
  | [], _ => by rw [wordsOf]; rfl
  | p :: ps, qs => by rw [List.cons_append, wordsOf, wordsOf, wordsOf_append ps qs, List.append_assoc]

theorem fitsAll_append : ∀ {ps qs : List Pat} {ts us : List TN}, FitsAll ps ts → FitsAll qs us → FitsAll (ps ++ qs) (ts ++ us)
  | [], _, [], _, _, h => by simpa using h
  | [], _, _ :: _, _, h, _ => by rw [FitsAll] at h; exact h.elim; all_goals simp
  | _ :: _, _, [], _, h, _ => by rw [FitsAll] at h; exact h.elim; all_goals simp
  | p :: ps, _, t :: ts, _, h, h' => by
    rw [FitsAll] at h
    rw [List.cons_append, List.cons_append, FitsAll]
    exact ⟨h.1, fitsAll_append h.2 h'⟩

theorem fitsAll_length : ∀ {ps : List Pat} {ts : List TN}, FitsAll ps ts → ps.length = ts.length
  | [], [], _ => rfl
  | [], _ :: _, h => by rw [FitsAll] at h; exact h.elim; all_goals simp
  | _ :: _, [], h => by rw [FitsAll] at h; exact h.elim; all_goals simp
  | p :: ps, t :: ts, h => by
    rw [FitsAll] at h
    simp [fitsAll_length h.2]

/-- What has been read: patterns of finished trees and beginnings of open nodes. -/
inductive Seen (root : TN) : Stack → List (List Nat) → Prop
  | base {ps i} : i ≤ root.children.length → FitsAll ps (root.children.take i) → Seen root (⟨root, i⟩, []) (wordsOf ps)
  | start {n : TN} {i : Nat} {child rest w} : Seen root (⟨n, i⟩, rest) w → n.children[i]? = some child → child.isNode = true →
      Seen root (⟨child, -1⟩, ⟨n, i⟩ :: rest) (w ++ [[40]])
  | opened {n : TN} {i : Nat} {child rest w word ps} {j : Nat} : Seen root (⟨n, i⟩, rest) w → n.children[i]? = some child →
      child.isNode = true → Means word child.name → j ≤ child.children.length → FitsAll ps (child.children.take j) →
      Seen root (⟨child, j⟩, ⟨n, i⟩ :: rest) (w ++ [40] :: word :: wordsOf ps)

theorem take_get {α} {l : List α} {i : Nat} {a : α} (h : l[i]? = some a) : l.take (i + 1) = l.take i ++ [a] := by
  rw [List.take_succ, h]
  rfl

theorem seen_next {root : TN} {n : TN} {i : Nat} {rest : List VFrame} {w : List (List Nat)} {child : TN} {p : Pat}
    (h : Seen root (⟨n, i⟩, rest) w) (hc : n.children[i]? = some child) (hp : Fits p child) :
    Seen root (⟨n, (i : Int) + 1⟩, rest) (w ++ p.words) := by
  have hi : i + 1 ≤ n.children.length := by
    have := (List.getElem?_eq_some_iff.1 hc).1
    omega
  have e : ∀ ps, wordsOf ps ++ p.words = wordsOf (ps ++ [p]) := fun ps => by rw [wordsOf_append, wordsOf, wordsOf, List.append_nil]
  have f : ∀ ps, FitsAll ps (n.children.take i) → FitsAll (ps ++ [p]) (n.children.take (i + 1)) := fun ps h => by
    rw [take_get hc]
    exact fitsAll_append h (by rw [FitsAll, FitsAll]; exact ⟨hp, trivial⟩)
  generalize hs : ((⟨n, (i : Int)⟩, rest) : Stack) = s at h
  cases h with
  | base h1 h2 =>
    cases hs
    rw [e]
    exact .base (i := i + 1) hi (f _ h2)
  | start h1 h2 h3 =>
    simp only [Prod.mk.injEq, VFrame.mk.injEq] at hs
    omega
  | opened h1 h2 h3 h4 h5 h6 =>
    simp only [Prod.mk.injEq, VFrame.mk.injEq, Int.natCast_inj] at hs
    obtain ⟨⟨rfl, rfl⟩, rfl⟩ := hs
    rw [List.append_assoc, List.cons_append, List.cons_append, e]
    exact .opened (j := i + 1) h1 h2 h3 h4 hi (f _ h6)

theorem seen_index {root : TN} {s : Stack} {w : List (List Nat)} (h : Seen root s w) :
    (∃ i : Nat, s.1.index = i ∧ i ≤ s.1.node.children.length) ∨
    (s.1.index = -1 ∧ ∃ n i rest w', s.2 = ⟨n, (i : Nat)⟩ :: rest ∧ Seen root (⟨n, i⟩, rest) w' ∧ w = w' ++ [[40]] ∧
      n.children[i]? = some s.1.node ∧ s.1.node.isNode = true) := by
  cases h with
  | base h1 h2 => exact .inl ⟨_, rfl, h1⟩
  | start h1 h2 h3 => exact .inr ⟨rfl, _, _, _, _, rfl, h1, rfl, h2, h3⟩
  | opened h1 h2 h3 h4 h5 h6 => exact .inl ⟨_, rfl, h5⟩

theorem seen_name {root : TN} {s s' : Stack} {w : List (List Nat)} {cmd : List Nat} (h : Seen root s w) (h1 : cmd ≠ [40])
    (h2 : cmd ≠ [41]) (hs : matchName s cmd = some (.ok s')) : Seen root s' (w ++ [cmd]) := by
  obtain ⟨⟨n, i⟩, rest⟩ := s
  rw [matchName] at hs
  obtain ⟨name, hn, hs⟩ := Option.bind_eq_some_iff.1 hs
  have hm := (unquote_iff _ _ h1 h2).1 hn
  rcases seen_index h with ⟨i', hi, hl⟩ | ⟨hi, n0, i0, rest0, w0, hr, h0, rfl, hc, hb⟩
  · simp only at hi hl
    subst hi
    rw [if_neg (by simp)] at hs
    split at hs
    · cases hs
    · obtain ⟨child, hc, hs⟩ := Option.bind_eq_some_iff.1 hs
      simp only [Go.index, Int.natCast_nonneg, if_true, Int.toNat_natCast] at hc
      split at hs
      · cases hs
      · rename_i hb
        split at hs
        · cases hs
        · rename_i hne
          cases hs
          refine seen_next (p := .tok cmd) h hc ?_
          obtain ⟨b, nm, tx, cs⟩ := child
          rw [Fits]
          refine ⟨by simpa [TN.isNode] using hb, name, hm, ?_⟩
          simp only [TN.name, TN.text, ne_eq, not_and_or, not_not] at hne
          exact hne
  · simp only at hi hr hc hb
    subst hi hr
    rw [if_pos (show (-1 : Int) < 0 by decide)] at hs
    split at hs
    · cases hs
    · rename_i hne
      cases hs
      simp only [ne_eq, not_not] at hne
      rw [List.append_assoc]
      exact .opened (j := 0) (ps := []) h0 hc hb (hne ▸ hm) (Nat.zero_le _) (by rw [List.take_zero, FitsAll]; trivial)

theorem seen_start {root : TN} {s s' : Stack} {w : List (List Nat)} (h : Seen root s w)
    (hs : matchNtStart s = some (.ok s')) : Seen root s' (w ++ [[40]]) := by
  obtain ⟨⟨n, i⟩, rest⟩ := s
  rw [matchNtStart] at hs
  simp only at hs
  split at hs
  · cases hs
  · obtain ⟨child, hc, hs⟩ := Option.bind_eq_some_iff.1 hs
    rw [Go.index] at hc
    split at hc
    · rename_i hi
      obtain ⟨i, rfl⟩ := Int.eq_ofNat_of_zero_le hi
      split at hs
      · cases hs
      · rename_i hb
        cases hs
        exact .start h (by simpa using hc) (by simpa using hb)
    · cases hc

theorem seen_end {root : TN} {s s' : Stack} {w : List (List Nat)} (h : Seen root s w)
    (hs : matchNtEnd s = some (.ok s')) : Seen root s' (w ++ [[41]]) := by
  rw [matchNtEnd] at hs
  cases h with
  | base h1 h2 => cases hs
  | start h1 h2 h3 =>
    simp only [VFrame.length] at hs
    rw [if_pos (by omega)] at hs
    obtain ⟨_, _, hs⟩ := Option.bind_eq_some_iff.1 hs
    cases hs
  | @opened n i child rest w word ps j h1 h2 h3 h4 h5 h6 =>
    simp only [VFrame.length] at hs
    split at hs
    · obtain ⟨_, _, hs⟩ := Option.bind_eq_some_iff.1 hs
      cases hs
    · rename_i hj
      cases hs
      have hj : j = child.children.length := by simpa using hj
      rw [hj, List.take_length] at h6
      have := seen_next (p := .node word ps) h1 h2 (by
        obtain ⟨b, nm, tx, cs⟩ := child
        rw [Fits]
        exact ⟨h3, h4, h6⟩)
      rw [Pat.words] at this
      simpa using this

theorem seen_command {root : TN} {s s' : Stack} {w : List (List Nat)} {cmd : List Nat} (h : Seen root s w)
    (hs : command s cmd = some (.ok s')) : Seen root s' (w ++ [cmd]) := by
  rw [command] at hs
  split at hs
  · rename_i e; subst e; exact seen_start h hs
  · split at hs
    · rename_i e; subst e; exact seen_end h hs
    · exact seen_name h ‹_› ‹_› hs

theorem seen_loop {root : TN} : ∀ {cmds : List (List Nat)} {s s' : Stack} {w : List (List Nat)}, Seen root s w →
    validateLoop s cmds = some (.ok s') → Seen root s' (w ++ cmds)
  | [], s, s', w, h, hs => by
    rw [validateLoop] at hs
    cases hs
    simpa using h
  | cmd :: cmds, s, s', w, h, hs => by
    rw [validateLoop] at hs
    obtain ⟨r, hr, hs⟩ := Option.bind_eq_some_iff.1 hs
    cases r with
    | error e => cases hs
    | ok s1 =>
      have := seen_loop (seen_command h hr) hs
      simpa using this

theorem loop_append : ∀ (xs ys : List (List Nat)) (s : Stack), validateLoop s (xs ++ ys) =
    (validateLoop s xs).bind fun | .error e => some (.error e) | .ok s => validateLoop s ys
  | [], ys, s => by rw [validateLoop]; rfl
  | x :: xs, ys, s => by
    rw [List.cons_append, validateLoop, validateLoop]
    cases command s x with
    | none => rfl
    | some r =>
      cases r with
      | error e => rfl
      | ok s1 => exact loop_append xs ys s1

mutual
theorem loop_fits (n : TN) (rest : List VFrame) (i : Nat) (child : TN) (hc : n.children[i]? = some child) :
    ∀ p : Pat, Fits p child → validateLoop (⟨n, i⟩, rest) p.words = some (.ok (⟨n, (i : Int) + 1⟩, rest))
  | .tok w, h => by
    obtain ⟨b, nm, tx, cs⟩ := child
    rw [Fits] at h
    obtain ⟨rfl, name, hm, hn⟩ := h
    have hne := means_ne hm
    have hl := (List.getElem?_eq_some_iff.1 hc).1
    rw [Pat.words, validateLoop, command, if_neg hne.1, if_neg hne.2, matchName, (unquote_iff _ _ hne.1 hne.2).2 hm, Option.bind_some]
    simp only [VFrame.length]
    rw [if_neg (by omega), if_neg (by omega), Go.index, if_pos (by omega), Int.toNat_natCast, hc, Option.bind_some]
    rw [if_neg (by simp [TN.isNode]), if_neg (by rcases hn with rfl | rfl <;> simp [TN.name, TN.text])]
    rfl
  | .node w ps, h => by
    obtain ⟨b, nm, tx, cs⟩ := child
    rw [Fits] at h
    obtain ⟨rfl, hm, hf⟩ := h
    have hne := means_ne hm
    have hl := (List.getElem?_eq_some_iff.1 hc).1
    rw [Pat.words, validateLoop, command, if_pos rfl, matchNtStart]
    simp only [VFrame.length]
    rw [if_neg (by omega), Go.index, if_pos (by omega), Int.toNat_natCast, hc, Option.bind_some]
    rw [if_neg (by simp [TN.isNode]), Option.bind_some]
    dsimp only
    rw [validateLoop, command, if_neg hne.1, if_neg hne.2, matchName, (unquote_iff _ _ hne.1 hne.2).2 hm, Option.bind_some]
    simp only
    rw [if_pos (by decide), if_neg (by simp [TN.name]), Option.bind_some]
    dsimp only
    rw [loop_append]
    have := loop_fitsAll (.mk true nm tx cs) (⟨n, i⟩ :: rest) 0 ps cs (by simp [TN.children]) hf
    simp only [Int.natCast_zero, Int.zero_add] at this
    rw [show (-1 : Int) + 1 = 0 from rfl, this, Option.bind_some]
    dsimp only
    rw [validateLoop, command, if_neg (by decide), if_pos rfl, matchNtEnd]
    dsimp only
    rw [if_neg (by simp [VFrame.length, TN.children])]
    rfl
theorem loop_fitsAll (n : TN) (rest : List VFrame) (i : Nat) : ∀ (ps : List Pat) (ts : List TN), ts <+: n.children.drop i →
    FitsAll ps ts → validateLoop (⟨n, i⟩, rest) (wordsOf ps) = some (.ok (⟨n, (i : Int) + (ts.length : Nat)⟩, rest))
  | [], [], _, _ => by rw [wordsOf, validateLoop]; simp
  | [], _ :: _, _, h => by rw [FitsAll] at h; exact h.elim; all_goals simp
  | _ :: _, [], _, h => by rw [FitsAll] at h; exact h.elim; all_goals simp
  | p :: ps, t :: ts, hp, h => by
    rw [FitsAll] at h
    obtain ⟨us, hp⟩ := hp
    have hc : n.children[i]? = some t := by
      have : (n.children.drop i)[0]? = some t := by rw [← hp]; rfl
      simpa using this
    rw [wordsOf, loop_append, loop_fits n rest i t hc p h.1, Option.bind_some]
    dsimp only
    have := loop_fitsAll n rest (i + 1) ps ts ⟨us, by
      have : n.children.drop (i + 1) = (n.children.drop i).drop 1 := by rw [List.drop_drop]
      rw [this, ← hp]; rfl⟩ h.2
    rw [show ((i : Int) + 1) = ((i + 1 : Nat) : Int) from rfl, this]
    simp only [List.length_cons, Int.natCast_add, Int.natCast_one]
    congr 4
    omega
end

theorem means_of_proper {w : List Nat} (h : w ≠ []) (h1 : w ≠ [39]) (h2 : w ≠ [40]) (h3 : w ≠ [41]) : ∃ n, Means w n := by
  cases w with
  | nil => exact absurd rfl h
  | cons c w =>
    by_cases hc : c = 39
    · subst hc
      rcases List.eq_nil_or_concat w with rfl | ⟨w', q, rfl⟩
      · exact absurd rfl h1
      · exact ⟨w', .inl ⟨q, by simp⟩⟩
    · exact ⟨_, .inr ⟨rfl, h, by simpa using hc, h2, h3⟩⟩

theorem index_some {α} {l : List α} {i : Nat} (h : i < l.length) : Go.index l (i : Int) = some l[i] := by
  rw [Go.index, if_pos (by omega)]
  simp [h]

/-- A command does not panic. -/
theorem command_some {root : TN} {s : Stack} {w : List (List Nat)} {cmd : List Nat} (h : Seen root s w) (h1 : cmd ≠ []) (h2 : cmd ≠ [39])
    (h3 : s.1.index = -1 → cmd ≠ [40] ∧ cmd ≠ [41]) : ∃ r, command s cmd = some r := by
  obtain ⟨⟨n, i⟩, rest⟩ := s
  simp only at h3
  have hi : i = -1 ∨ ∃ k : Nat, i = k ∧ k ≤ n.children.length := by
    rcases seen_index h with ⟨k, hk⟩ | ⟨hk, -⟩
    · exact .inr ⟨k, hk⟩
    · exact .inl hk
  have hl : ∀ x, VFrame.length ⟨n, x⟩ = n.children.length := fun _ => rfl
  rw [command]
  split
  · rename_i hc
    obtain ⟨k, rfl, hk⟩ := hi.resolve_left (fun e => (h3 e).1 hc)
    rw [matchNtStart]
    dsimp only
    split
    · exact ⟨_, rfl⟩
    · rw [index_some (by have := hl k; omega), Option.bind_some]
      split <;> exact ⟨_, rfl⟩
  · split
    · rename_i hc
      obtain ⟨k, rfl, hk⟩ := hi.resolve_left (fun e => (h3 e).2 hc)
      rw [matchNtEnd]
      cases rest with
      | nil => exact ⟨_, rfl⟩
      | cons p rest =>
        dsimp only
        split
        · rw [index_some (by have := hl k; omega), Option.bind_some]
          exact ⟨_, rfl⟩
        · exact ⟨_, rfl⟩
    · rename_i hc1 hc2
      obtain ⟨name, hm⟩ := means_of_proper h1 h2 hc1 hc2
      rw [matchName, (unquote_iff _ _ hc1 hc2).2 hm, Option.bind_some]
      dsimp only
      split
      · split <;> exact ⟨_, rfl⟩
      · split
        · exact ⟨_, rfl⟩
        · obtain ⟨k, rfl, hk⟩ := hi.resolve_left (fun e => by omega)
          rw [index_some (by have := hl k; omega), Option.bind_some]
          split
          · exact ⟨_, rfl⟩
          · split <;> exact ⟨_, rfl⟩

/-- Only `(` makes the index negative. -/
theorem seen_minus {root : TN} {s : Stack} {w : List (List Nat)} {cmd : List Nat} (h : Seen root s (w ++ [cmd])) (hi : s.1.index = -1) :
    cmd = [40] := by
  rcases seen_index h with ⟨k, hk, -⟩ | ⟨-, n, i, rest, w', -, -, e, -⟩
  · omega
  · exact (List.append_inj' e rfl).2 |> List.head_eq_of_cons_eq

theorem loop_some {root : TN} : ∀ {cmds : List (List Nat)} {s : Stack} {w : List (List Nat)}, Seen root s w → Proper cmds →
    (s.1.index = -1 → cmds.head? ≠ some [40] ∧ cmds.head? ≠ some [41]) → ∃ r, validateLoop s cmds = some r
  | [], s, w, _, _, _ => ⟨_, rfl⟩
  | cmd :: cmds, s, w, h, hp, hi => by
    rw [Proper] at hp
    obtain ⟨r, hr⟩ := command_some (cmd := cmd) h hp.2.1 hp.2.2.1 (fun e => by simpa using hi e)
    rw [validateLoop, hr, Option.bind_some]
    cases r with
    | error e => exact ⟨_, rfl⟩
    | ok s1 =>
      have h1 := seen_command h hr
      exact loop_some h1 hp.2.2.2 fun e => hp.1 (seen_minus h1 e)

theorem isPlain_iff (c : Nat) : isPlain c = true ↔ InWord c := by
  simp [isPlain, isSpace, InWord, Blank, not_or, and_assoc]

theorem plainLen_word : ∀ {w s : List Nat}, (∀ c ∈ w, InWord c) → (∀ c, s.head? = some c → ¬InWord c) → plainLen (w ++ s) = w.length
  | [], [], _, _ => rfl
  | [], c :: s, _, h => by
    have := h c rfl
    rw [← isPlain_iff] at this
    rw [List.nil_append, plainLen, if_neg this]
    rfl
  | c :: w, s, hw, h => by
    rw [List.cons_append, plainLen, if_pos ((isPlain_iff c).2 (hw c (by simp))), plainLen_word (fun c hc => hw c (by simp [hc])) h]
    rfl

theorem quoteAt_some : ∀ {b s : List Nat}, (∀ c ∈ b, c ≠ 39 ∧ c ≠ 10) → quoteAt (b ++ 39 :: s) = some b.length
  | [], _, _ => by rw [List.nil_append, quoteAt, if_pos rfl]; rfl
  | c :: b, s, h => by
    have hc := h c (by simp)
    rw [List.cons_append, quoteAt, if_neg hc.1, if_neg hc.2, quoteAt_some (fun c hc => h c (by simp [hc]))]
    rfl

/-- Words are found in the text. -/
theorem findAll_written {s : List Nat} {ws : List (List Nat)} (h : Written s ws) : ∀ n, s.length ≤ n → findAll n s = ws := by
  induction h with
  | nil => intro n _; cases n <;> rfl
  | @blank c s ws hc h ih =>
    intro n hn
    obtain ⟨n, rfl⟩ := Nat.exists_eq_add_of_le' (show 1 ≤ n by simp at hn; omega)
    have h0 : matchLen (c :: s) = 0 := by
      rw [matchLen]
      have h1 : isPlain c = false := by
        rw [← Bool.not_eq_true, isPlain_iff]
        exact fun h => h.1 hc
      have h2 : quotedLen (c :: s) = none := by
        cases s with
        | nil => rfl
        | cons d s =>
          rw [quotedLen, if_neg]
          rintro ⟨rfl, -⟩
          simp [Blank] at hc
      rw [if_neg (by rintro rfl; simp [Blank] at hc), if_neg (by rintro rfl; simp [Blank] at hc), h2]
      simp [plainLen, h1]
    rw [findAll, if_pos h0, ih n (by simpa using hn)]
  | @left s ws h ih =>
    intro n hn
    obtain ⟨n, rfl⟩ := Nat.exists_eq_add_of_le' (show 1 ≤ n by simp at hn; omega)
    have h0 : matchLen (40 :: s) = 1 := by rw [matchLen, if_pos rfl]
    rw [findAll, h0, if_neg (by decide)]
    simp only [List.drop_succ_cons, List.drop_zero, List.take_succ_cons, List.take_zero]
    rw [ih n (by simpa using hn)]
  | @right s ws h ih =>
    intro n hn
    obtain ⟨n, rfl⟩ := Nat.exists_eq_add_of_le' (show 1 ≤ n by simp at hn; omega)
    have h0 : matchLen (41 :: s) = 1 := by rw [matchLen, if_neg (by decide), if_pos rfl]
    rw [findAll, h0, if_neg (by decide)]
    simp only [List.drop_succ_cons, List.drop_zero, List.take_succ_cons, List.take_zero]
    rw [ih n (by simpa using hn)]
  | @word w s ws h1 h2 h3 h4 h ih =>
    intro n hn
    obtain ⟨n, rfl⟩ := Nat.exists_eq_add_of_le' (show 1 ≤ n by
      have := List.length_pos_iff.2 h1
      simp at hn; omega)
    have hl := plainLen_word h3 h4
    have hp := List.length_pos_iff.2 h1
    cases w with
    | nil => exact absurd rfl h1
    | cons c w =>
      have hc := h3 c (by simp)
      have h0 : matchLen (c :: (w ++ s)) = (c :: w).length := by
        have hq : quotedLen (c :: (w ++ s)) = none := by
          generalize w ++ s = x
          cases x with
          | nil => rfl
          | cons d x =>
            rw [quotedLen, if_neg]
            rintro ⟨rfl, -⟩
            simp at h2
        rw [matchLen, if_neg hc.2.1, if_neg hc.2.2, hq]
        exact hl
      rw [List.cons_append, findAll, h0, if_neg (by simp)]
      rw [← List.cons_append, List.take_left, List.drop_left]
      rw [ih n (by simp at hn; omega)]
  | @quoted b s ws h1 h2 h ih =>
    intro n hn
    obtain ⟨n, rfl⟩ := Nat.exists_eq_add_of_le' (show 1 ≤ n by simp at hn; omega)
    have h0 : matchLen (39 :: (b ++ 39 :: s)) = b.length + 2 := by
      cases b with
      | nil => exact absurd rfl h1
      | cons d b =>
        have hd := h2 d (by simp)
        rw [matchLen, if_neg (by decide), if_neg (by decide), List.cons_append, quotedLen, if_pos ⟨rfl, hd.2⟩,
          quoteAt_some (fun c hc => h2 c (by simp [hc]))]
        rfl
    have e : 39 :: (b ++ 39 :: s) = (39 :: (b ++ [39])) ++ s := by simp
    have l : b.length + 2 = (39 :: (b ++ [39])).length := by simp
    rw [findAll, h0, if_neg (by omega), e, l, List.take_left, List.drop_left, ih n (by simp at hn; omega)]

theorem append_items (names : Nat → List Nat) (typeName : String → List Nat) (b : Bool) (n t : List Nat) : ∀ (items : List Item) (cs : List TN),
    (testHooks names typeName).items (.mk b n t cs) items = .ok (.mk b n t (cs ++ treesOf names typeName items))
  | [], cs => by rw [Spec.HookClass.items, treesOf, List.append_nil]
  | .tok tok :: items, cs => by
    rw [Spec.HookClass.items, Spec.HookClass.item, treesOf, treeOf]
    have := append_items names typeName b n t items (cs ++ [.mk false (typeName tok.typeName) tok.content []])
    simp only [List.append_assoc, List.singleton_append] at this
    exact this
  | .node i start its :: items, cs => by
    rw [Spec.HookClass.items, Spec.HookClass.item, treesOf, treeOf]
    have h1 := append_items names typeName true (names i) [] its []
    have := append_items names typeName b n t items (cs ++ [.mk true (names i) [] (treesOf names typeName its)])
    simp only [List.append_assoc, List.singleton_append] at this
    simp only [testHooks, nodeNode, Spec.orStop] at h1 this ⊢
    rw [h1]
    exact this

end Verif.Proof.TestTree
