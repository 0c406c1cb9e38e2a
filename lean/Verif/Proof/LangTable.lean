/-
Tables built while directives and definitions of tokens are read.
-/
import Verif.Proof.LangBody
import Verif.Spec.LangHead

namespace Verif.Proof.LangDef

open Verif.Model Verif.Model.LangDef Verif.Spec.LangDef

/-- Facts about a prefix of a description. -/
structure View where
  defs : List (List Nat × List Nat)
  early : List (List Nat)
  grp : List Nat → Nat
  flg : List Nat → TokenFlags
  lits : List (List Nat × Bool)
  tmpl : List (List Nat × List Nat)
  ngroups : Nat
  rt : Bool
  rl : Bool
  layers : List LayerDef

def View.entry (V : View) (d : List Nat × List Nat) : GToken := { name := d.1, re := some d.2, group := V.grp d.1, flags := V.flg d.1 }

def View.extra (V : View) (n : List Nat) : ExtraToken := { name := n, group := V.grp n, flags := V.flg n }

def View.has (V : View) (n : List Nat) : Prop := n ∈ V.defs.map Prod.fst

/-- The context represents the facts. -/
structure HInv (V : View) (c : Ctx) : Prop where
  tokens : c.tokens = V.defs.map V.entry
  tokenIndex : ∀ n, c.tokenIndex.lookup n = (V.defs.map Prod.fst).findIdx? (· = n)
  early : c.extraTokens.map ExtraToken.name = V.early
  nodupE : V.early.Nodup
  extraIn : ∀ n, V.has n → c.extraIndex.lookup n = none
  extraOut : ∀ n, ¬ V.has n → c.extraIndex.lookup n = V.early.findIdx? (· = n)
  extra : ∀ et ∈ c.extraTokens, ¬ V.has et.name → et = V.extra et.name
  fresh : ∀ n, ¬ V.has n → n ∉ V.early → V.grp n = 0 ∧ V.flg n = {}
  lits : c.literals = V.lits.map fun l => (l.1, { reserved := l.2 })
  litIndex : ∀ n, c.literalIndex.lookup n = (V.lits.map Prod.fst).findIdx? (· = n)
  tmpl : ∀ n, c.templates.lookup n = V.tmpl.lookup n
  nodup : (V.defs.map Prod.fst).Nodup
  nodupL : (V.lits.map Prod.fst).Nodup
  ngroups : c.currentGroup = V.ngroups
  rt : c.restrictLiteralTypes = V.rt
  rl : c.restrictLiterals = V.rl
  layers : c.layers = V.layers
  nodes : c.nodes = []
  noLit : ∀ n, (V.flg n).literal = false

theorem findIdx?_mem {l : List (List Nat)} {n : List Nat} {i : Nat} (h : l.findIdx? (· = n) = some i) : l[i]? = some n := by
  rw [List.findIdx?_eq_some_iff_getElem] at h
  obtain ⟨hi, hp, -⟩ := h
  simp only [decide_eq_true_eq] at hp
  rw [List.getElem?_eq_getElem hi, hp]

theorem findIdx?_none {l : List (List Nat)} {n : List Nat} : l.findIdx? (· = n) = none ↔ n ∉ l := by
  rw [List.findIdx?_eq_none_iff]
  constructor
  · intro h hc
    have := h n hc
    simp at this
  · rintro h x hx
    simp only [decide_eq_false_iff_not]
    rintro rfl
    exact h hx

theorem nodup_getElem?_inj {α : Type} {l : List α} (h : l.Nodup) {i j : Nat} {a : α} (hi : l[i]? = some a) (hj : l[j]? = some a) : i = j := by
  rw [List.getElem?_eq_some_iff] at hi hj
  obtain ⟨hi, hi'⟩ := hi
  obtain ⟨hj, hj'⟩ := hj
  exact (List.Nodup.getElem_inj_iff h).1 (by rw [hi', hj'])

/-- `addExtraToken`: the token is listed. -/
theorem addExtra_hinv {V : View} {c : Ctx} (h : HInv V c) {n : List Nat} (hn : ¬ V.has n) :
    HInv { V with early := enlist V.early [n] } (addExtraToken c n).2 ∧
      (enlist V.early [n])[(addExtraToken c n).1]? = some n ∧ ∃ a b, (addExtraToken c n).2 = { c with extraTokens := a, extraIndex := b } := by
  unfold addExtraToken
  rw [h.extraOut n hn]
  cases hx : V.early.findIdx? (· = n) with
  | some i =>
    have hi := findIdx?_mem hx
    have hm : n ∈ V.early := List.mem_of_getElem? hi
    have he : enlist V.early [n] = V.early := by rw [enlist, if_pos hm, enlist]
    dsimp only
    rw [he]
    exact ⟨h, hi, _, _, rfl⟩
  | none =>
    have hm := findIdx?_none.1 hx
    have he : enlist V.early [n] = V.early ++ [n] := by rw [enlist, if_neg hm, enlist]
    dsimp only
    rw [he]
    have hlen : c.extraTokens.length = V.early.length := by rw [← h.early]; simp
    refine ⟨?_, ?_, _, _, rfl⟩
    · exact {
        h with
        early := by simp [h.early]
        nodupE := by
          show (V.early ++ [n]).Nodup
          rw [List.nodup_append]
          refine ⟨h.nodupE, by simp, ?_⟩
          intro a ha b hb
          simp only [List.mem_singleton] at hb
          subst hb
          rintro rfl
          exact hm ha
        extraIn := by
          intro m hm'
          dsimp only
          rw [List.lookup_cons]
          have : (m == n) = false := by
            simp only [beq_eq_false_iff_ne, ne_eq]
            rintro rfl
            exact hn hm'
          rw [this]
          exact h.extraIn m hm'
        extraOut := by
          intro m hm'
          dsimp only
          rw [List.lookup_cons, List.findIdx?_append]
          by_cases hmn : m = n
          · subst hmn
            rw [hx]
            simp [hlen]
          · have : (m == n) = false := by simpa using hmn
            have hnm : ¬ n = m := fun e => hmn e.symm
            rw [this]
            dsimp only
            rw [h.extraOut m hm']
            cases V.early.findIdx? (· = m) with
            | some i => rfl
            | none => simp [hnm]
        extra := by
          intro et het hne
          rcases List.mem_append.1 het with het | het
          · exact h.extra et het hne
          · simp only [List.mem_singleton] at het
            subst het
            obtain ⟨f1, f2⟩ := h.fresh n hn hm
            show ({ name := n } : ExtraToken) = ⟨n, V.grp n, V.flg n⟩
            rw [f1, f2]
        fresh := by
          intro m hm1 hm2
          refine h.fresh m hm1 ?_
          intro hc
          exact hm2 (List.mem_append_left _ hc) }
    · rw [List.getElem?_append_right (by omega), hlen]
      simp

/-- Names of types mentioned so far. -/
def View.mention (V : View) (n : List Nat) [Decidable (V.has n)] : View := if V.has n then V else { V with early := enlist V.early [n] }

instance (V : View) (n : List Nat) : Decidable (V.has n) := by unfold View.has; infer_instance

theorem set_map {α β : Type} (f g : α → β) (l : List α) (i : Nat) (a : α) (ha : l[i]? = some a) (hg : ∀ (j : Nat) (b : α), l[j]? = some b → j ≠ i → g b = f b) :
    (l.map f).set i (g a) = l.map g := by
  apply List.ext_getElem?
  intro j
  rw [List.getElem?_set]
  split
  · next hij =>
    subst hij
    rw [List.getElem?_map, ha]
    have := (List.getElem?_eq_some_iff.1 ha).1
    simp [this]
  · next hij =>
    rw [List.getElem?_map, List.getElem?_map]
    cases hb : l[j]? with
    | none => rfl
    | some b => simp [hg j b hb (fun e => hij e.symm)]

/-- Position of a defined type. -/
theorem HInv.defIndex {V : View} {c : Ctx} (h : HInv V c) {n : List Nat} {i : Nat} (hi : c.tokenIndex.lookup n = some i) :
    ∃ re, V.defs[i]? = some (n, re) := by
  rw [h.tokenIndex] at hi
  have := findIdx?_mem hi
  rw [List.getElem?_map, Option.map_eq_some_iff] at this
  obtain ⟨⟨m, re⟩, h1, h2⟩ := this
  dsimp only at h2
  subst h2
  exact ⟨re, h1⟩

theorem HInv.defOther {V : View} {c : Ctx} (h : HInv V c) {n : List Nat} {re : List Nat} {i : Nat} (hi : V.defs[i]? = some (n, re)) {j : Nat}
    {d : List Nat × List Nat} (hj : V.defs[j]? = some d) (hij : j ≠ i) : d.1 ≠ n := by
  intro e
  apply hij
  refine nodup_getElem?_inj h.nodup (a := n) ?_ ?_
  · rw [List.getElem?_map, hj, ← e]; rfl
  · rw [List.getElem?_map, hi]; rfl

/-- `addTokenFlag`. -/
theorem addFlag_hinv {V : View} {c : Ctx} (h : HInv V c) (n : List Nat) (fl : TokenFlags) (hfl : fl.literal = false) :
    ∃ c', addTokenFlag c n fl = some c' ∧
      HInv { V.mention n with flg := fun m => if m = n then orFlags (V.flg n) fl else V.flg m } c' := by
  have hnl : ∀ m, (if m = n then orFlags (V.flg n) fl else V.flg m).literal = false := by
    intro m
    split
    · simp [orFlags, h.noLit, hfl]
    · exact h.noLit m
  unfold addTokenFlag
  cases hx : c.tokenIndex.lookup n with
  | some i =>
    obtain ⟨re, hi⟩ := h.defIndex hx
    have hn : V.has n := List.mem_map.2 ⟨_, List.mem_of_getElem? hi, rfl⟩
    have hm : V.mention n = V := by unfold View.mention; rw [if_pos hn]
    rw [hm]
    dsimp only
    have hti : c.tokens[i]? = some (V.entry (n, re)) := by rw [h.tokens, List.getElem?_map, hi]; rfl
    unfold update
    rw [hti]
    refine ⟨_, rfl, ?_⟩
    exact {
      h with
      tokens := by
        dsimp only
        rw [h.tokens]
        have := set_map V.entry (View.entry { V with flg := fun m => if m = n then orFlags (V.flg n) fl else V.flg m }) V.defs i (n, re) hi ?_
        · rw [← this]
          simp [View.entry]
        · intro j b hb hij
          have := h.defOther hi hb hij
          simp [View.entry, this]
      extra := by
        intro et het hne
        have hen : et.name ≠ n := fun e => hne (by rw [e]; exact hn)
        have := h.extra et het hne
        rw [this]
        simp [View.extra, hen]
      fresh := by
        intro m hm1 hm2
        have hmn : m ≠ n := fun e => hm1 (by rw [e]; exact hn)
        dsimp only
        rw [if_neg hmn]
        exact h.fresh m hm1 hm2
      noLit := hnl }
  | none =>
    have hn : ¬ V.has n := by
      rw [h.tokenIndex] at hx
      exact findIdx?_none.1 hx
    have hm : V.mention n = { V with early := enlist V.early [n] } := by unfold View.mention; rw [if_neg hn]
    obtain ⟨h1, h2, a, b, h3⟩ := addExtra_hinv h hn
    rw [hm]
    dsimp only
    generalize addExtraToken c n = r at h1 h2 h3
    obtain ⟨i, c1⟩ := r
    dsimp only at h1 h2 h3 ⊢
    have hget : ∃ et, c1.extraTokens[i]? = some et ∧ et.name = n := by
      have := h1.early
      dsimp only at this
      rw [← this, List.getElem?_map, Option.map_eq_some_iff] at h2
      exact h2
    obtain ⟨et, het, hname⟩ := hget
    unfold update
    rw [het]
    refine ⟨_, rfl, ?_⟩
    have hE : et = V.extra n := by
      have := h1.extra et (List.mem_of_getElem? het) (by rw [hname]; exact hn)
      rw [hname] at this
      exact this
    have hother : ∀ (j : Nat) et', c1.extraTokens[j]? = some et' → j ≠ i → et'.name ≠ n := by
      intro j et' hj hij e
      apply hij
      refine nodup_getElem?_inj h1.nodupE (a := n) ?_ h2
      rw [← h1.early, List.getElem?_map, hj, ← e]; rfl
    exact {
      h1 with
      tokens := by
        dsimp only
        rw [h1.tokens]
        refine List.map_congr_left ?_
        intro d hd
        have : d.1 ≠ n := fun e => hn (List.mem_map.2 ⟨d, hd, e⟩)
        simp [View.entry, this]
      early := by
        refine Eq.trans ?_ h1.early
        apply List.ext_getElem?
        intro j
        rw [List.getElem?_map, List.getElem?_map, List.getElem?_set]
        split
        · next hij =>
          subst hij
          have hlt := (List.getElem?_eq_some_iff.1 het).1
          rw [if_pos hlt, het]
          rfl
        · rfl
      extra := by
        intro et' het' hne
        obtain ⟨j, hj⟩ := List.getElem?_of_mem het'
        rw [List.getElem?_set] at hj
        split at hj
        · next hij =>
          split at hj
          · cases hj
            rw [hE]
            simp [View.extra]
          · cases hj
        · next hij =>
          have hne' := hother j et' hj (fun e => hij e.symm)
          have := h1.extra et' (List.mem_of_getElem? hj) hne
          rw [this]
          simp [View.extra, hne']
      fresh := by
        intro m hm1 hm2
        dsimp only at hm2 ⊢
        have hmn : m ≠ n := by
          rintro rfl
          exact hm2 (List.mem_of_getElem? h2)
        rw [if_neg hmn]
        exact h1.fresh m hm1 hm2
      noLit := hnl }

/-- The same for groups. -/
theorem addGroup_hinv {V : View} {c : Ctx} (h : HInv V c) (n : List Nat) (hn : ¬ V.has n) :
    ∃ es, update (addExtraToken c n).2.extraTokens (addExtraToken c n).1 (fun t => { t with group := (addExtraToken c n).2.currentGroup }) = some es ∧
      HInv { V.mention n with grp := fun m => if m = n then V.ngroups else V.grp m } { (addExtraToken c n).2 with extraTokens := es } := by
  have hm : V.mention n = { V with early := enlist V.early [n] } := by unfold View.mention; rw [if_neg hn]
  obtain ⟨h1, h2, a, b, h3⟩ := addExtra_hinv h hn
  rw [hm]
  generalize addExtraToken c n = r at h1 h2 h3
  obtain ⟨i, c1⟩ := r
  dsimp only at h1 h2 h3 ⊢
  have hget : ∃ et, c1.extraTokens[i]? = some et ∧ et.name = n := by
    have := h1.early
    dsimp only at this
    rw [← this, List.getElem?_map, Option.map_eq_some_iff] at h2
    exact h2
  obtain ⟨et, het, hname⟩ := hget
  unfold update
  rw [het]
  refine ⟨_, rfl, ?_⟩
  have hE : et = V.extra n := by
    have := h1.extra et (List.mem_of_getElem? het) (by rw [hname]; exact hn)
    rw [hname] at this
    exact this
  have hother : ∀ (j : Nat) et', c1.extraTokens[j]? = some et' → j ≠ i → et'.name ≠ n := by
    intro j et' hj hij e
    apply hij
    refine nodup_getElem?_inj h1.nodupE (a := n) ?_ h2
    rw [← h1.early, List.getElem?_map, hj, ← e]; rfl
  exact {
    h1 with
    tokens := by
      dsimp only
      rw [h1.tokens]
      refine List.map_congr_left ?_
      intro d hd
      have : d.1 ≠ n := fun e => hn (List.mem_map.2 ⟨d, hd, e⟩)
      simp [View.entry, this]
    early := by
      refine Eq.trans ?_ h1.early
      apply List.ext_getElem?
      intro j
      rw [List.getElem?_map, List.getElem?_map, List.getElem?_set]
      split
      · next hij =>
        subst hij
        have hlt := (List.getElem?_eq_some_iff.1 het).1
        rw [if_pos hlt, het]
        rfl
      · rfl
    extra := by
      intro et' het' hne
      obtain ⟨j, hj⟩ := List.getElem?_of_mem het'
      rw [List.getElem?_set] at hj
      split at hj
      · next hij =>
        split at hj
        · cases hj
          rw [hE, h1.ngroups]
          simp [View.extra]
        · cases hj
      · next hij =>
        have hne' := hother j et' hj (fun e => hij e.symm)
        have := h1.extra et' (List.mem_of_getElem? hj) hne
        rw [this]
        simp [View.extra, hne']
    fresh := by
      intro m hm1 hm2
      dsimp only at hm2 ⊢
      have hmn : m ≠ n := by
        rintro rfl
        exact hm2 (List.mem_of_getElem? h2)
      rw [if_neg hmn]
      exact h1.fresh m hm1 hm2 }

theorem setGroup_hinv {V : View} {c : Ctx} (h : HInv V c) {n : List Nat} {i : Nat} (hx : c.tokenIndex.lookup n = some i) :
    ∃ re, c.tokens[i]? = some (V.entry (n, re)) ∧ V.mention n = V ∧
      HInv { V with grp := fun m => if m = n then V.ngroups else V.grp m }
        { c with tokens := c.tokens.set i { V.entry (n, re) with group := c.currentGroup } } := by
  obtain ⟨re, hi⟩ := h.defIndex hx
  have hn : V.has n := List.mem_map.2 ⟨_, List.mem_of_getElem? hi, rfl⟩
  have hm : V.mention n = V := by unfold View.mention; rw [if_pos hn]
  have hti : c.tokens[i]? = some (V.entry (n, re)) := by rw [h.tokens, List.getElem?_map, hi]; rfl
  refine ⟨re, hti, hm, ?_⟩
  exact {
    h with
    tokens := by
      dsimp only
      rw [h.tokens]
      have := set_map V.entry (View.entry { V with grp := fun m => if m = n then V.ngroups else V.grp m }) V.defs i (n, re) hi ?_
      · rw [← this, h.ngroups]
        simp [View.entry]
      · intro j b hb hij
        have := h.defOther hi hb hij
        simp [View.entry, this]
    extra := by
      intro et het hne
      have hen : et.name ≠ n := fun e => hne (by rw [e]; exact hn)
      have := h.extra et het hne
      rw [this]
      simp [View.extra, hen]
    fresh := by
      intro m hm1 hm2
      have hmn : m ≠ n := fun e => hm1 (by rw [e]; exact hn)
      dsimp only
      rw [if_neg hmn]
      exact h.fresh m hm1 hm2 }

/-- `addLiteralToken`. -/
theorem addLit_hinv {V : View} {c : Ctx} (h : HInv V c) (n : List Nat) (b : Bool) :
    HInv { V with lits := enlistDecl V.lits [(n, b)] } (addLiteralToken c n { reserved := b }) := by
  unfold addLiteralToken
  rw [h.litIndex]
  cases hx : (V.lits.map Prod.fst).findIdx? (· = n) with
  | some i =>
    have hm : n ∈ V.lits.map Prod.fst := List.mem_of_getElem? (findIdx?_mem hx)
    have he : enlistDecl V.lits [(n, b)] = V.lits := by rw [enlistDecl, if_pos hm, enlistDecl]
    rw [he]
    exact h
  | none =>
    have hm := findIdx?_none.1 hx
    have he : enlistDecl V.lits [(n, b)] = V.lits ++ [(n, b)] := by rw [enlistDecl, if_neg hm, enlistDecl]
    rw [he]
    exact {
      h with
      lits := by simp [h.lits]
      litIndex := by
        intro m
        dsimp only
        rw [List.lookup_cons, List.map_append, List.findIdx?_append]
        by_cases hmn : m = n
        · subst hmn
          rw [hx]
          simp [h.lits]
        · have : (m == n) = false := by simpa using hmn
          have hnm : ¬ n = m := fun e => hmn e.symm
          rw [this]
          dsimp only
          rw [h.litIndex m]
          cases (V.lits.map Prod.fst).findIdx? (· = m) with
          | some i => rfl
          | none => simp [hnm]
      nodupL := by
        show ((V.lits ++ [(n, b)]).map Prod.fst).Nodup
        rw [List.map_append, List.nodup_append]
        refine ⟨h.nodupL, by simp, ?_⟩
        intro a ha x hx
        simp only [List.map_cons, List.map_nil, List.mem_singleton] at hx
        subst hx
        rintro rfl
        exact hm ha }

/-- A token type is defined. -/
theorem addToken_hinv {V : View} {c : Ctx} (h : HInv V c) (n re : List Nat) (hn : ¬ V.has n) (hre : re ≠ []) :
    ∃ c', addToken c n re {} = some c' ∧ HInv { V with defs := V.defs ++ [(n, re)] } c' := by
  have hhas : ∀ m, View.has { V with defs := V.defs ++ [(n, re)] } m ↔ V.has m ∨ m = n := by
    intro m; unfold View.has; simp
  have hidx : ∀ m, List.lookup m ((n, c.tokens.length) :: c.tokenIndex) = ((V.defs ++ [(n, re)]).map Prod.fst).findIdx? (· = m) := by
    intro m
    rw [List.lookup_cons, List.map_append, List.findIdx?_append]
    by_cases hmn : m = n
    · subst hmn
      rw [findIdx?_none.2 hn]
      simp [h.tokens]
    · have : (m == n) = false := by simpa using hmn
      have hnm : ¬ n = m := fun e => hmn e.symm
      rw [this]
      dsimp only
      rw [h.tokenIndex m]
      cases (V.defs.map Prod.fst).findIdx? (· = m) with
      | some i => rfl
      | none => simp [hnm]
  have hnodup : ((V.defs ++ [(n, re)]).map Prod.fst).Nodup := by
    rw [List.map_append, List.nodup_append]
    refine ⟨h.nodup, by simp, ?_⟩
    intro a ha x hx
    simp only [List.map_cons, List.map_nil, List.mem_singleton] at hx
    subst hx
    rintro rfl
    exact hn ha
  have hentry : View.entry { V with defs := V.defs ++ [(n, re)] } = V.entry := rfl
  unfold addToken
  rw [h.extraOut n hn]
  cases hx : V.early.findIdx? (· = n) with
  | some i =>
    have hi := findIdx?_mem hx
    dsimp only
    rw [← h.early, List.getElem?_map, Option.map_eq_some_iff] at hi
    obtain ⟨et, het, hname⟩ := hi
    rw [het]
    have hE : et = V.extra n := by
      have := h.extra et (List.mem_of_getElem? het) (by rw [hname]; exact hn)
      rw [hname] at this
      exact this
    refine ⟨_, rfl, ?_⟩
    exact {
      h with
      tokens := by
        dsimp only
        rw [hentry, h.tokens, List.map_append, hE, if_neg hre]
        simp [View.entry, View.extra, orFlags]
      tokenIndex := hidx
      extraIn := by
        intro m hm
        dsimp only
        rw [hhas] at hm
        by_cases hmn : m = n
        · subst hmn
          rw [lookup_filter_ne, if_pos rfl]
        · rw [lookup_filter_ne, if_neg hmn]
          exact h.extraIn m (hm.resolve_right hmn)
      extraOut := by
        intro m hm
        rw [hhas, not_or] at hm
        dsimp only
        rw [lookup_filter_ne, if_neg hm.2]
        exact h.extraOut m hm.1
      extra := by
        intro et het hne
        rw [hhas, not_or] at hne
        exact h.extra et het hne.1
      fresh := by
        intro m hm1 hm2
        rw [hhas, not_or] at hm1
        exact h.fresh m hm1.1 hm2
      nodup := hnodup }
  | none =>
    have hm := findIdx?_none.1 hx
    dsimp only
    refine ⟨_, rfl, ?_⟩
    obtain ⟨f1, f2⟩ := h.fresh n hn hm
    exact {
      h with
      tokens := by
        dsimp only
        rw [hentry, h.tokens, List.map_append, if_neg hre]
        simp [View.entry, f1, f2]
      tokenIndex := hidx
      extraIn := by
        intro m hm'
        rw [hhas] at hm'
        rcases hm' with hm' | rfl
        · exact h.extraIn m hm'
        · dsimp only
          rw [h.extraOut m hn, hx]
      extraOut := by
        intro m hm
        rw [hhas, not_or] at hm
        exact h.extraOut m hm.1
      extra := by
        intro et het hne
        rw [hhas, not_or] at hne
        exact h.extra et het hne.1
      fresh := by
        intro m hm1 hm2
        rw [hhas, not_or] at hm1
        exact h.fresh m hm1.1 hm2
      nodup := hnodup }

end Verif.Proof.LangDef
