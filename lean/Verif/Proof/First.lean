/-
First tokens of expressions.
-/
import Verif.Proof.ChunkSound
import Verif.Spec.Derive

namespace Verif.Model

open Verif.Spec Verif.Spec.Ebnf
open scoped Computability

/-- First tokens of a symbol. -/
def symFirst (ft : Nat → Finset Int) : Sym → Finset Int
  | .tok t => {(t : Int)}
  | .eoi => {eoiTokenType}
  | .node i => ft i

/-- Keys that start words of a language. -/
def HeadOf (ft : Nat → Finset Int) (L : Language Sym) (k : Int) : Prop :=
  ∃ x w, (x :: w) ∈ L ∧ k ∈ symFirst ft x

mutual

theorem lang_nonempty : ∀ (c : Chunk), WF c → ∃ w, w ∈ lang c
  | .token t, _ => ⟨[.tok t], by rw [lang]; rfl⟩
  | .eoi, _ => ⟨[.eoi], by rw [lang]; rfl⟩
  | .node i, _ => ⟨[.node i], by rw [lang]; rfl⟩
  | .variant cs, h => by
    rw [WF] at h
    rw [lang]
    exact langAny_nonempty cs h.1 h.2
  | .group cs opt rep, h => by
    rw [WF] at h
    obtain ⟨w, hw⟩ := langSeq_nonempty cs h.2.2
    rw [lang]
    cases rep with
    | true => exact ⟨[], Language.nil_mem_kstar _⟩
    | false =>
      cases opt with
      | true => exact ⟨[], (Language.mem_add ..).mpr (Or.inl Language.nil_mem_one)⟩
      | false => exact ⟨w, by simpa using hw⟩

theorem langAny_nonempty : ∀ (cs : List Chunk), cs ≠ [] → WFs cs → ∃ w, w ∈ langAny cs
  | [], h, _ => absurd rfl h
  | c :: cs, _, h => by
    rw [WFs] at h
    obtain ⟨w, hw⟩ := lang_nonempty c h.1
    exact ⟨w, by rw [langAny]; exact (Language.mem_add ..).mpr (Or.inl hw)⟩

theorem langSeq_nonempty : ∀ (cs : List Chunk), WFs cs → ∃ w, w ∈ langSeq cs
  | [], _ => ⟨[], by rw [langSeq]; exact Language.nil_mem_one⟩
  | c :: cs, h => by
    rw [WFs] at h
    obtain ⟨w, hw⟩ := lang_nonempty c h.1
    obtain ⟨w', hw'⟩ := langSeq_nonempty cs h.2
    exact ⟨w ++ w', by rw [langSeq]; exact Language.append_mem_mul hw hw'⟩

end

mutual

theorem mem_firstTokens (ft : Nat → Finset Int) (k : Int) :
    ∀ (c : Chunk), WF c → (k ∈ c.firstTokens ft ↔ HeadOf ft (lang c) k)
  | .token t, _ => by
    rw [Chunk.firstTokens, lang]
    constructor
    · intro h; exact ⟨.tok t, [], rfl, h⟩
    · rintro ⟨x, w, hw, hk⟩
      have : x :: w = [.tok t] := hw
      cases this; exact hk
  | .eoi, _ => by
    rw [Chunk.firstTokens, lang]
    constructor
    · intro h; exact ⟨.eoi, [], rfl, h⟩
    · rintro ⟨x, w, hw, hk⟩
      have : x :: w = [.eoi] := hw
      cases this; exact hk
  | .node i, _ => by
    rw [Chunk.firstTokens, lang]
    constructor
    · intro h; exact ⟨.node i, [], rfl, h⟩
    · rintro ⟨x, w, hw, hk⟩
      have : x :: w = [.node i] := hw
      cases this; exact hk
  | .variant cs, h => by
    rw [WF] at h
    rw [Chunk.firstTokens, lang]
    exact mem_firstOfAny ft k cs h.2
  | .group cs opt rep, h => by
    rw [WF] at h
    have ih := mem_firstOfSeq ft k cs h.2.2
    rw [Chunk.firstTokens, lang, ih]
    constructor
    · rintro ⟨x, w, hw, hk⟩
      refine ⟨x, w, ?_, hk⟩
      cases rep with
      | true => exact Language.mem_kstar.mpr ⟨[x :: w], by simp, by simpa using hw⟩
      | false =>
        cases opt with
        | true => exact (Language.mem_add ..).mpr (Or.inr hw)
        | false => exact hw
    · rintro ⟨x, w, hw, hk⟩
      cases rep with
      | true =>
        simp only [if_true] at hw
        rw [Language.mem_kstar_iff_exists_nonempty] at hw
        obtain ⟨S, hS, hne⟩ := hw
        cases S with
        | nil => simp at hS
        | cons v S =>
          obtain ⟨hv, hv0⟩ := hne v (by simp)
          cases v with
          | nil => simp at hv0
          | cons y v =>
            simp only [List.flatten_cons, List.cons_append, List.cons.injEq] at hS
            exact ⟨y, v, hv, by rw [← hS.1]; exact hk⟩
      | false =>
        simp only [Bool.false_eq_true, if_false] at hw
        refine ⟨x, w, ?_, hk⟩
        cases opt with
        | true =>
          simp only [if_true] at hw
          rcases (Language.mem_add ..).mp hw with hw | hw
          · have := (Language.mem_one _).mp hw
            simp at this
          · exact hw
        | false => simpa using hw

theorem mem_firstOfAny (ft : Nat → Finset Int) (k : Int) :
    ∀ (cs : List Chunk), WFs cs → (k ∈ Chunk.firstOfAny ft cs ↔ HeadOf ft (langAny cs) k)
  | [], _ => by
    rw [Chunk.firstOfAny, langAny]
    constructor
    · simp
    · rintro ⟨x, w, hw, _⟩
      exact absurd hw (Language.notMem_zero _)
  | c :: cs, h => by
    rw [WFs] at h
    rw [Chunk.firstOfAny, langAny, Finset.mem_union, mem_firstTokens ft k c h.1, mem_firstOfAny ft k cs h.2]
    constructor
    · rintro (⟨x, w, hw, hk⟩ | ⟨x, w, hw, hk⟩)
      · exact ⟨x, w, (Language.mem_add ..).mpr (Or.inl hw), hk⟩
      · exact ⟨x, w, (Language.mem_add ..).mpr (Or.inr hw), hk⟩
    · rintro ⟨x, w, hw, hk⟩
      rcases (Language.mem_add ..).mp hw with hw | hw
      · exact Or.inl ⟨x, w, hw, hk⟩
      · exact Or.inr ⟨x, w, hw, hk⟩

theorem mem_firstOfSeq (ft : Nat → Finset Int) (k : Int) :
    ∀ (cs : List Chunk), WFs cs → (k ∈ Chunk.firstOfSeq ft cs ↔ HeadOf ft (langSeq cs) k)
  | [], _ => by
    rw [Chunk.firstOfSeq, langSeq]
    constructor
    · simp
    · rintro ⟨x, w, hw, _⟩
      have := (Language.mem_one _).mp hw
      simp at this
  | c :: cs, h => by
    rw [WFs] at h
    have ih1 := mem_firstTokens ft k c h.1
    have ih2 := mem_firstOfSeq ft k cs h.2
    have hn : c.isOptional = true ↔ [] ∈ lang c := by rw [nullable_eq c h.1, nullable_iff]
    obtain ⟨v, hv⟩ := langSeq_nonempty cs h.2
    rw [Chunk.firstOfSeq, langSeq]
    have hright : HeadOf ft (lang c * langSeq cs) k ↔
        HeadOf ft (lang c) k ∨ ([] ∈ lang c ∧ HeadOf ft (langSeq cs) k) := by
      constructor
      · rintro ⟨x, w, hw, hk⟩
        obtain ⟨a, ha, b, hb, hab⟩ := Language.mem_mul.mp hw
        cases a with
        | nil =>
          simp only [List.nil_append] at hab
          subst hab
          exact Or.inr ⟨ha, x, w, hb, hk⟩
        | cons y a =>
          simp only [List.cons_append, List.cons.injEq] at hab
          exact Or.inl ⟨y, a, ha, by rw [hab.1]; exact hk⟩
      · rintro (⟨x, w, hw, hk⟩ | ⟨h0, x, w, hw, hk⟩)
        · exact ⟨x, w ++ v, by rw [← List.cons_append]; exact Language.append_mem_mul hw hv, hk⟩
        · exact ⟨x, w, by simpa using Language.append_mem_mul h0 hw, hk⟩
    rw [hright, ← ih1, ← ih2, ← hn]
    split
    · next ho => simp [ho]
    · next ho => simp [ho]

end

mutual

theorem refs_of_lang : ∀ (c : Chunk) (w : List Sym) (i : Nat), w ∈ lang c → Sym.node i ∈ w → i ∈ refs c
  | .token t, w, i, hw, hi => by
    rw [lang] at hw
    have : w = [.tok t] := hw
    subst this; simp at hi
  | .eoi, w, i, hw, hi => by
    rw [lang] at hw
    have : w = [.eoi] := hw
    subst this; simp at hi
  | .node j, w, i, hw, hi => by
    rw [lang] at hw
    have : w = [.node j] := hw
    subst this
    rw [refs]
    simpa using hi
  | .variant cs, w, i, hw, hi => by
    rw [lang] at hw
    rw [refs]
    exact refs_of_langAny cs w i hw hi
  | .group cs opt rep, w, i, hw, hi => by
    have ih := refs_of_langSeq cs
    rw [lang] at hw
    rw [refs]
    cases rep with
    | true =>
      obtain ⟨S, rfl, hS⟩ := Language.mem_kstar.mp hw
      obtain ⟨v, hv, hiv⟩ := List.mem_flatten.mp hi
      exact ih v i (hS v hv) hiv
    | false =>
      simp only [Bool.false_eq_true, if_false] at hw
      cases opt with
      | true =>
        simp only [if_true] at hw
        rcases (Language.mem_add ..).mp hw with hw | hw
        · have := (Language.mem_one _).mp hw
          subst this; simp at hi
        · exact ih w i hw hi
      | false => exact ih w i (by simpa using hw) hi

theorem refs_of_langAny : ∀ (cs : List Chunk) (w : List Sym) (i : Nat),
    w ∈ langAny cs → Sym.node i ∈ w → i ∈ refsAll cs
  | [], w, i, hw, _ => by
    rw [langAny] at hw
    exact absurd hw (Language.notMem_zero _)
  | c :: cs, w, i, hw, hi => by
    rw [langAny] at hw
    rw [refsAll, Finset.mem_union]
    rcases (Language.mem_add ..).mp hw with hw | hw
    · exact Or.inl (refs_of_lang c w i hw hi)
    · exact Or.inr (refs_of_langAny cs w i hw hi)

theorem refs_of_langSeq : ∀ (cs : List Chunk) (w : List Sym) (i : Nat),
    w ∈ langSeq cs → Sym.node i ∈ w → i ∈ refsAll cs
  | [], w, i, hw, hi => by
    rw [langSeq] at hw
    have := (Language.mem_one _).mp hw
    subst this; simp at hi
  | c :: cs, w, i, hw, hi => by
    rw [langSeq] at hw
    rw [refsAll, Finset.mem_union]
    obtain ⟨a, ha, b, hb, rfl⟩ := Language.mem_mul.mp hw
    rcases List.mem_append.mp hi with hi | hi
    · exact Or.inl (refs_of_lang c a i ha hi)
    · exact Or.inr (refs_of_langSeq cs b i hb hi)

end

theorem firstTokens_congr {ft ft' : Nat → Finset Int} {c : Chunk} (hc : WF c) (h : ∀ i ∈ refs c, ft i = ft' i) :
    c.firstTokens ft = c.firstTokens ft' := by
  have key : ∀ {f g : Nat → Finset Int}, (∀ i ∈ refs c, f i = g i) → ∀ k, HeadOf f (lang c) k →
      HeadOf g (lang c) k := by
    rintro f g hfg k ⟨x, w, hw, hk⟩
    refine ⟨x, w, hw, ?_⟩
    cases x with
    | tok => exact hk
    | eoi => exact hk
    | node i =>
      have := hfg i (refs_of_lang c _ i hw (by simp))
      simpa [symFirst, this] using hk
  ext k
  rw [mem_firstTokens ft k c hc, mem_firstTokens ft' k c hc]
  exact ⟨key h k, key (fun i hi => (h i hi).symm) k⟩

theorem firstTokens_base {ft : Nat → Finset Int} {c : Chunk} (hc : WF c) {k : Int} (hk : k ∈ c.firstTokens ft) :
    k ∈ c.firstTokens (fun _ => ∅) ∨ ∃ i ∈ refs c, k ∈ ft i := by
  rw [mem_firstTokens ft k c hc] at hk
  rw [mem_firstTokens _ k c hc]
  obtain ⟨x, w, hw, hk⟩ := hk
  cases x with
  | tok => exact Or.inl ⟨_, w, hw, hk⟩
  | eoi => exact Or.inl ⟨_, w, hw, hk⟩
  | node i => exact Or.inr ⟨i, refs_of_lang c _ i hw (by simp), hk⟩

theorem firstTokens_mono {ft ft' : Nat → Finset Int} {c : Chunk} (hc : WF c) (h : ∀ i, ft i ⊆ ft' i) :
    c.firstTokens ft ⊆ c.firstTokens ft' := by
  intro k
  rw [mem_firstTokens ft k c hc, mem_firstTokens ft' k c hc]
  rintro ⟨x, w, hw, hk⟩
  refine ⟨x, w, hw, ?_⟩
  cases x with
  | tok => exact hk
  | eoi => exact hk
  | node i => exact h i hk

mutual

/-- An expression has a first token as soon as the nodes it refers to have. -/
theorem firstTokens_nonempty (ft : Nat → Finset Int) : ∀ (c : Chunk), WF c → (∀ i ∈ refs c, (ft i).Nonempty) →
    (c.firstTokens ft).Nonempty
  | .token t, _, _ => by rw [Chunk.firstTokens]; simp
  | .eoi, _, _ => by rw [Chunk.firstTokens]; simp
  | .node i, _, h => by rw [Chunk.firstTokens]; exact h i (by rw [refs]; simp)
  | .variant cs, h, hr => by
    rw [WF] at h
    rw [refs] at hr
    rw [Chunk.firstTokens]
    exact firstOfAny_nonempty ft cs h.1 h.2 hr
  | .group cs opt rep, h, hr => by
    rw [WF] at h
    rw [refs] at hr
    rw [Chunk.firstTokens]
    exact firstOfSeq_nonempty ft cs h.1 h.2.2 hr

theorem firstOfAny_nonempty (ft : Nat → Finset Int) : ∀ (cs : List Chunk), cs ≠ [] → WFs cs →
    (∀ i ∈ refsAll cs, (ft i).Nonempty) → (Chunk.firstOfAny ft cs).Nonempty
  | [], h, _, _ => absurd rfl h
  | c :: cs, _, h, hr => by
    rw [WFs] at h
    rw [refsAll] at hr
    rw [Chunk.firstOfAny]
    exact (firstTokens_nonempty ft c h.1 (fun i hi => hr i (Finset.mem_union_left _ hi))).mono Finset.subset_union_left

theorem firstOfSeq_nonempty (ft : Nat → Finset Int) : ∀ (cs : List Chunk), cs ≠ [] → WFs cs →
    (∀ i ∈ refsAll cs, (ft i).Nonempty) → (Chunk.firstOfSeq ft cs).Nonempty
  | [], h, _, _ => absurd rfl h
  | c :: cs, _, h, hr => by
    rw [WFs] at h
    rw [refsAll] at hr
    have := firstTokens_nonempty ft c h.1 (fun i hi => hr i (Finset.mem_union_left _ hi))
    rw [Chunk.firstOfSeq]
    split
    · exact this.mono Finset.subset_union_left
    · exact this

end

/-- Keys computed from keys that can start nodes can start the node. -/
theorem starts_step {body : Nat → Chunk} {ft : Nat → Finset Int} {i : Nat} (hc : WF (body i))
    (hs : ∀ j, ∀ k ∈ ft j, Starts body j k) {k : Int} (hk : k ∈ (body i).firstTokens ft) : Starts body i k := by
  rw [mem_firstTokens ft k _ hc] at hk
  obtain ⟨x, w, hw, hk⟩ := hk
  cases x with
  | tok t =>
    have : k = t := by simpa [symFirst] using hk
    subst this
    exact Starts.tok hw
  | eoi =>
    have : k = eoiTokenType := by simpa [symFirst] using hk
    subst this
    exact Starts.eoi hw
  | node j => exact Starts.node hw (hs j k hk)

/-- Sets closed under the definitions contain all keys that can start nodes. -/
theorem starts_closed {body : Nat → Chunk} {n : Nat} {ft : Nat → Finset Int} (hc : ∀ i < n, WF (body i))
    (hr : ∀ i < n, ∀ j ∈ refs (body i), j < n)
    (hcl : ∀ i < n, (body i).firstTokens ft ⊆ ft i) {i : Nat} {k : Int} (hs : Starts body i k) (hi : i < n) :
    k ∈ ft i := by
  induction hs with
  | tok hw =>
    rename_i i t w
    exact hcl i hi ((mem_firstTokens ft _ _ (hc i hi)).mpr ⟨_, w, hw, by simp [symFirst]⟩)
  | eoi hw =>
    rename_i i w
    exact hcl i hi ((mem_firstTokens ft _ _ (hc i hi)).mpr ⟨_, w, hw, by simp [symFirst]⟩)
  | node hw _ ih =>
    rename_i i j w k _
    have hj : j < n := hr i hi j (refs_of_lang _ _ j hw (by simp))
    exact hcl i hi ((mem_firstTokens ft _ _ (hc i hi)).mpr ⟨_, w, hw, ih hj⟩)

end Verif.Model
