/-
Layers of token hooks for types (without hooks for literals).
-/
import Verif.Model.Pipeline
import Mathlib.Data.List.Basic

namespace Verif.Proof

open Verif.Model
open Verif.Model.Tree (bindRun)

variable {η : Type}

/-- The hook for a type: the last one in the list wins. -/
def hookFor (g : Grammar) (hs : List (List Nat × TokenHook η)) (i : Int) : Option (TokenHook η) :=
  ((hs.filter fun h => g.tokenName h.1 = some i).getLast?).map (·.2)

theorem hookFor_snoc (g : Grammar) (hs : List (List Nat × TokenHook η)) (h : List Nat × TokenHook η) (i : Int) :
    hookFor g (hs ++ [h]) i = if g.tokenName h.1 = some i then some h.2 else hookFor g hs i := by
  simp only [hookFor, List.filter_append, List.filter_cons, List.filter_nil]
  by_cases hc : g.tokenName h.1 = some i
  · simp [hc]
  · simp [hc]

theorem tokenName_range {g : Grammar} {name : List Nat} {i : Int} (h : g.tokenName name = some i) :
    -3 ≤ i ∧ i < g.tokens.length ∧ (0 ≤ i → ∃ t, g.tokens[i.toNat]? = some t ∧ t.flags.literal = false) := by
  unfold Grammar.tokenName at h
  split at h
  · next k hk =>
    have := List.mem_of_getLast? hk
    simp only [List.mem_filter, List.mem_range] at this
    obtain ⟨h1, h2⟩ := this
    simp only [Option.some.injEq] at h
    subst h
    refine ⟨by omega, by omega, fun _ => ⟨g.tokens[k], ?_, ?_⟩⟩
    · simp [h1]
    · rw [List.getElem?_eq_getElem h1] at h2
      simp at h2
      simp [h2.1.1]
  · split at h
    · cases h; exact ⟨by decide, by simp [anyToken]; omega, by simp [anyToken]⟩
    · split at h
      · cases h; exact ⟨by decide, by simp [eofTokenType]; omega, by simp [eofTokenType]⟩
      · split at h
        · cases h; exact ⟨by decide, by simp [eoiTokenType]; omega, by simp [eoiTokenType]⟩
        · cases h

theorem pcLiteral_flag {g : Grammar} {extra : List (List Nat)} {text : List Nat} {i : Nat} (h : g.pcLiteral extra text = some i)
    (hlt : i < g.tokens.length) : ∃ t, g.tokens[i]? = some t ∧ t.flags.literal = true := by
  unfold Grammar.pcLiteral at h
  split at h
  · next k hk =>
    cases h
    have := List.mem_of_getLast? hk
    simp only [List.mem_filter, List.mem_range] at this
    obtain ⟨h1, h2⟩ := this
    rw [List.getElem?_eq_getElem h1] at h2 ⊢
    simp at h2
    exact ⟨_, rfl, h2.1⟩
  · cases hx : extra.idxOf? text with
    | none => rw [hx] at h; simp at h
    | some k => rw [hx] at h; simp at h; omega

theorem tokenMax_spec (g : Grammar) : ∀ (ks : List (List Nat)) (m : Int), (∀ k ∈ ks, g.tokenName k ≠ none) →
    ∃ m', tokenMax g ks m = some m' ∧ m ≤ m' ∧ ∀ k ∈ ks, ∀ i, g.tokenName k = some i → i ≤ m'
  | [], m, _ => ⟨m, rfl, le_refl _, by simp⟩
  | k :: ks, m, h => by
    obtain ⟨i, hi⟩ := Option.ne_none_iff_exists'.mp (h k (by simp))
    obtain ⟨m', h1, h2, h3⟩ := tokenMax_spec g ks (if i > m then i else m) (fun k hk => h k (by simp [hk]))
    refine ⟨m', by simp only [tokenMax, hi, h1], ?_, ?_⟩
    · split at h2 <;> omega
    · intro k' hk' j hj
      rcases List.mem_cons.mp hk' with rfl | hk'
      · rw [hi] at hj; cases hj
        split at h2 <;> omega
      · exact h3 k' hk' j hj

/-- The layer holds exactly the hooks for types. -/
def HoldsHooks (g : Grammar) (hs : List (List Nat × TokenHook η)) (l : TokenLayer η) : Prop :=
  3 ≤ l.length ∧ (∀ i : Int, -3 ≤ i → i + 3 < l.length → Go.index l (i + 3) = some (hookFor g hs i)) ∧
    ∀ i : Int, l.length ≤ i + 3 → hookFor g hs i = none

theorem fill_spec (g : Grammar) (hs : List (List Nat × TokenHook η)) (hk : ∀ h ∈ hs, g.tokenName h.1 ≠ none) (m : Int)
    (hm : 0 ≤ m) (hmax : ∀ h ∈ hs, ∀ i, g.tokenName h.1 = some i → i ≤ m) :
    ∃ l : TokenLayer η, hs.foldl (fun l h => l.bind fun l => (g.tokenName h.1).bind fun i => Go.setIndex l (i + 3) (some h.2))
        (some (List.replicate (m + 3 + 1).toNat none)) = some l ∧ l.length = (m + 3 + 1).toNat ∧ HoldsHooks g hs l := by
  induction hs using List.reverseRecOn with
  | nil =>
    refine ⟨_, rfl, by simp, by simp; omega, ?_, ?_⟩
    · intro i h1 h2
      simp only [List.length_replicate] at h2
      obtain ⟨n, hn⟩ : ∃ n : Nat, i + 3 = n := ⟨(i + 3).toNat, by omega⟩
      rw [hn, Go.index, if_pos (by omega), Int.toNat_natCast, List.getElem?_replicate, if_pos (by omega)]
      simp [hookFor]
    · intro i _; simp [hookFor]
  | append_singleton hs h ih =>
    obtain ⟨l, h1, h2, h3, h4, h5⟩ := ih (fun h hh => hk h (by simp [hh])) (fun h hh => hmax h (by simp [hh]))
    obtain ⟨j, hj⟩ := Option.ne_none_iff_exists'.mp (hk h (by simp))
    have hjr := tokenName_range hj
    have hjm := hmax h (by simp) j hj
    refine ⟨l.set (j + 3).toNat (some h.2), ?_, by simp [h2], by simpa using h3, ?_, ?_⟩
    · rw [List.foldl_append, h1]
      simp only [List.foldl_cons, List.foldl_nil, Option.bind_some, hj, Go.setIndex]
      rw [if_pos ⟨by omega, by omega⟩]
    · intro i hi1 hi2
      rw [List.length_set] at hi2
      rw [hookFor_snoc, hj]
      simp only [Option.some.injEq]
      rw [Go.index, if_pos (by omega), List.getElem?_set]
      by_cases hij : j = i
      · subst hij
        rw [if_pos rfl, if_pos (by omega), if_pos rfl]
      · rw [if_neg (by omega), if_neg hij]
        have := h4 i hi1 hi2
        rwa [Go.index, if_pos (by omega)] at this
    · intro i hi
      rw [List.length_set] at hi
      rw [hookFor_snoc, hj]
      simp only [Option.some.injEq]
      rw [if_neg (by omega)]
      exact h5 i hi

/-- A layer is made for known names. -/
theorem newTokenLayer_spec (g : Grammar) (extra : List (List Nat)) (hs : List (List Nat × TokenHook η)) (hne : hs ≠ [])
    (hk : ∀ h ∈ hs, g.tokenName h.1 ≠ none) :
    ∃ l : TokenLayer η, newTokenLayer g extra { tokens := hs } = some (some (extra, some l)) ∧ HoldsHooks g hs l := by
  obtain ⟨m, h1, h2, h3⟩ := tokenMax_spec g (hs.map (·.1)) 0 (by simpa using hk)
  obtain ⟨l, h4, -, h5⟩ := fill_spec g hs hk m h2 (fun h hh i hi => h3 h.1 (List.mem_map_of_mem hh) i hi)
  refine ⟨l, ?_, h5⟩
  unfold newTokenLayer
  rw [if_pos (by cases hs with
    | nil => exact absurd rfl hne
    | cons a b => simp)]
  simp only [h1, Option.map_some, List.map_nil, literalMax, List.foldl_nil]
  rw [h4]
  rfl

/-- The hook for a token is that for its type or that for any type. -/
theorem pickHook_spec (env : TEnv η) (hs : List (List Nat × TokenHook η)) (l : TokenLayer η) (hl : HoldsHooks env.g hs l)
    (tok : Token) (h1 : -3 ≤ tok.type) (h2 : tok.type < env.g.tokens.length) :
    pickHook env l tok = some (if tok.type < 0 then hookFor env.g hs tok.type else
      (hookFor env.g hs tok.type).or (hookFor env.g hs (-1))) := by
  obtain ⟨k1, k2, k3⟩ := hl
  unfold pickHook
  by_cases hneg : tok.type < 0
  · simp only [if_pos hneg, List.foldr_cons, List.foldr_nil]
    rw [k2 tok.type h1 (by omega)]
    cases hookFor env.g hs tok.type <;> rfl
  · simp only [if_neg hneg]
    have hi : Go.index env.g.tokens tok.type = some env.g.tokens[tok.type.toNat] := by
      rw [Go.index, if_pos (by omega)]; simp
    rw [hi, Option.bind_some]
    have hany : Go.index l (-1 + 3) = some (hookFor env.g hs (-1)) := k2 (-1) (by omega) (by omega)
    have hrest : List.foldr (fun i rest => (Go.index l (i + 3)).bind fun h => match h with
          | some h => some (some h)
          | none => rest) (some none) ((if tok.type ≤ (l.length : Int) - 3 - 1 then [tok.type] else []) ++ [-1]) =
        some ((hookFor env.g hs tok.type).or (hookFor env.g hs (-1))) := by
      split
      · simp only [List.cons_append, List.nil_append, List.foldr_cons, List.foldr_nil]
        rw [k2 tok.type h1 (by omega), hany]
        cases hookFor env.g hs tok.type <;> cases hookFor env.g hs (-1) <;> rfl
      · simp only [List.nil_append, List.foldr_cons, List.foldr_nil]
        rw [k3 tok.type (by omega), hany]
        cases hookFor env.g hs (-1) <;> rfl
    rw [List.append_assoc, List.foldr_append]
    erw [hrest]
    split
    · rfl
    · split
      · next i hlit =>
        split
        · next hle =>
          simp only [List.foldr_cons, List.foldr_nil]
          have hnone : hookFor env.g hs (i : Int) = none := by
            have : hs.filter (fun h => env.g.tokenName h.1 = some (i : Int)) = [] := by
              rw [List.filter_eq_nil_iff]
              intro h _ hh
              simp only [decide_eq_true_eq] at hh
              obtain ⟨-, a2, a3⟩ := tokenName_range hh
              obtain ⟨t, ht, hf⟩ := a3 (by omega)
              obtain ⟨t', ht', hf'⟩ := pcLiteral_flag hlit (by omega)
              rw [Int.toNat_natCast, ht'] at ht
              cases ht
              rw [hf] at hf'; cases hf'
            simp [hookFor, this]
          rw [k2 i (by omega) (by omega), hnone]
          rfl
        · rfl
      · rfl

/-- A layer with the only hook. -/
theorem pickHook_single (env : TEnv η) (name : List Nat) (hook : TokenHook η) (k : Int) (hk : env.g.tokenName name = some k)
    (l : TokenLayer η) (hl : HoldsHooks env.g [(name, hook)] l) (tok : Token) (hv : env.g.isValidType tok.type = true) :
    pickHook env l tok = some (if tok.type = k ∨ k = -1 ∧ 0 ≤ tok.type then some hook else none) := by
  replace hv := of_decide_eq_true hv
  simp only [eoiTokenType, anyToken] at hv
  rw [pickHook_spec env _ l hl tok (by omega) (by omega)]
  have hfor : ∀ i, hookFor env.g [(name, hook)] i = if k = i then some hook else none := fun i => by
    simp only [hookFor, List.filter_cons, hk, Option.some.injEq, List.filter_nil]
    by_cases hki : k = i
    · simp [hki]
    · simp [hki]
  rw [hfor, hfor]
  by_cases h1 : tok.type < 0
  · by_cases h2 : tok.type = k
    · simp [h1, h2]
    · simp [h1, h2, Ne.symm h2, show ¬ 0 ≤ tok.type by omega]
  · by_cases h2 : tok.type = k
    · subst h2; simp [h1]
    · simp [h1, h2, Ne.symm h2, show 0 ≤ tok.type by omega]

end Verif.Proof
