import Verif.Model.Tables
import Verif.Proof.Go
import Verif.Proof.Chunk

namespace Verif.Proof

open Verif.Model

theorem searchIn_spec {f : Nat → Bool} (fuel : Nat) (i j : Nat) (hij : i ≤ j) (hf : j - i ≤ fuel)
    (hm : ∀ a b, i ≤ a → a ≤ b → b < j → f a = true → f b = true) :
    i ≤ searchIn f fuel i j ∧ searchIn f fuel i j ≤ j ∧
    (∀ a, i ≤ a → a < searchIn f fuel i j → f a = false) ∧ (searchIn f fuel i j < j → f (searchIn f fuel i j) = true) := by
  induction fuel generalizing i j with
  | zero =>
    have : i = j := by omega
    subst this
    simp only [searchIn]
    exact ⟨le_refl _, le_refl _, fun a h1 h2 => by omega, fun h => by omega⟩
  | succ fuel ih =>
    simp only [searchIn]
    by_cases hlt : i < j
    · rw [if_pos hlt]
      by_cases hh : f ((i + j) / 2) = true
      · rw [if_pos hh]
        obtain ⟨h1, h2, h3, h4⟩ := ih i ((i + j) / 2) (by omega) (by omega)
          (fun a b ha hab hb h => hm a b ha hab (by omega) h)
        refine ⟨h1, by omega, h3, fun h => ?_⟩
        by_cases he : searchIn f fuel i ((i + j) / 2) < (i + j) / 2
        · exact h4 he
        · have : searchIn f fuel i ((i + j) / 2) = (i + j) / 2 := by omega
          rw [this]; exact hh
      · rw [if_neg hh]
        obtain ⟨h1, h2, h3, h4⟩ := ih ((i + j) / 2 + 1) j (by omega) (by omega)
          (fun a b ha hab hb h => hm a b (by omega) hab hb h)
        refine ⟨by omega, h2, fun a ha hb => ?_, h4⟩
        by_cases hc : (i + j) / 2 + 1 ≤ a
        · exact h3 a hc hb
        · cases hfa : f a with
          | false => rfl
          | true => exact absurd (hm a ((i + j) / 2) ha (by omega) (by omega) hfa) hh
    · rw [if_neg hlt]
      exact ⟨le_refl _, hij, fun a h1 h2 => by omega, fun h => absurd h hlt⟩

/-- Binary search in a strictly ascending list finds a member. -/
theorem search_mem {α : Type} (l : List α) (tok : α → Int) (hs : (l.map tok).SortedLT) {key : Int} {x : α} (hx : x ∈ l)
    (hk : tok x = key) :
    l[search l.length fun i => decide (((l[i]?).map tok).getD 0 ≥ key)]? = some x := by
  obtain ⟨n, hn, rfl⟩ := List.getElem_of_mem hx
  have hmono : ∀ a b (ha : a < l.length) (hb : b < l.length), a ≤ b → tok l[a] ≤ tok l[b] := by
    intro a b ha hb hab
    have := hs.strictMono_get.monotone (a := ⟨a, by simpa using ha⟩) (b := ⟨b, by simpa using hb⟩) (by simpa using hab)
    simpa using this
  have hinj : ∀ a b (ha : a < l.length) (hb : b < l.length), tok l[a] = tok l[b] → a = b := by
    intro a b ha hb hab
    have := hs.strictMono_get.injective (a₁ := ⟨a, by simpa using ha⟩) (a₂ := ⟨b, by simpa using hb⟩) (by simpa using hab)
    simpa using this
  obtain ⟨-, h2, h3, h4⟩ := searchIn_spec (f := fun i => decide (((l[i]?).map tok).getD 0 ≥ key)) l.length 0 l.length
    (by omega) (by omega) (by
      intro a b _ hab hb h
      have ha : a < l.length := by omega
      have := hmono a b ha hb hab
      simp only [List.getElem?_eq_getElem ha, List.getElem?_eq_getElem hb, Option.map_some, Option.getD_some,
        decide_eq_true_eq] at h ⊢
      omega)
  rw [search]
  set r := searchIn (fun i => decide (((l[i]?).map tok).getD 0 ≥ key)) l.length 0 l.length
  have hrn : r ≤ n := by
    by_contra hlt
    have := h3 n (by omega) (by omega)
    simp [List.getElem?_eq_getElem hn, hk] at this
  have hr : r < l.length := by omega
  have h5 := h4 hr
  simp only [List.getElem?_eq_getElem hr, Option.map_some, Option.getD_some, decide_eq_true_eq] at h5
  have h6 := hmono r n hr hn hrn
  have : r = n := hinj r n hr hn (by omega)
  simp [List.getElem?_eq_getElem hr, this]

/-- `gs` describes the rules `get` inside of the tables. -/
def Desc (t : Tables) (gs : GState) (keys : Finset Int) (get : Int → List Rule) : Prop :=
  ∃ (rs : List Rule) (ms : List MultiRule), Go.slice t.rules gs.lowRule gs.highRule = some rs ∧
    Go.slice t.multi gs.lowMulti gs.highMulti = some ms ∧
    rs.map (·.token) = rKeys keys get ∧ (∀ r ∈ rs, get r.token = [r]) ∧
    ms.map (·.token) = mKeys keys get ∧ ∀ m ∈ ms, Go.slice t.rules m.lowRule m.highRule = some (get m.token)

theorem slice_mono {α : Type} {a b x : List α} {lo hi : Int} (h : Go.slice a lo hi = some x) :
    Go.slice (a ++ b) lo hi = some x := by
  unfold Go.slice at h ⊢
  by_cases hc : 0 ≤ lo ∧ lo ≤ hi ∧ hi ≤ a.length
  · rw [if_pos hc] at h
    rw [if_pos (by simp only [List.length_append]; omega)]
    rw [← h, List.drop_append_of_le_length (by omega), List.take_append_of_le_length (by simp; omega)]
  · rw [if_neg hc] at h; cases h

theorem Desc.mono {t t' : Tables} {gs : GState} {keys : Finset Int} {get : Int → List Rule} (h : Desc t gs keys get)
    (h1 : t.rules <+: t'.rules) (h2 : t.multi <+: t'.multi) : Desc t' gs keys get := by
  obtain ⟨rs, ms, a, b, c, d, e, f⟩ := h
  obtain ⟨x, hx⟩ := h1
  obtain ⟨y, hy⟩ := h2
  refine ⟨rs, ms, hx ▸ slice_mono a, hy ▸ slice_mono b, c, d, e, fun m hm => hx ▸ slice_mono (f m hm)⟩

theorem addSingles_spec (get : Int → List Rule) (ks : List Int) (t : Tables)
    (h : ∀ k ∈ ks, ∃ r : Rule, get k = [r] ∧ r.token = k) :
    ∃ rs : List Rule, addSingles get ks t = some { t with rules := t.rules ++ rs } ∧ rs.map (·.token) = ks ∧
      ∀ r ∈ rs, get r.token = [r] := by
  induction ks generalizing t with
  | nil => exact ⟨[], by simp [addSingles], rfl, by simp⟩
  | cons k ks ih =>
    obtain ⟨r, hr, hk⟩ := h k (by simp)
    obtain ⟨rs, h1, h2, h3⟩ := ih { t with rules := t.rules ++ [r] } (fun k hk => h k (by simp [hk]))
    refine ⟨r :: rs, ?_, by simp [hk, h2], ?_⟩
    · rw [addSingles, hr]; simp only []; rw [h1]; simp
    · intro x hx
      rcases List.mem_cons.mp hx with rfl | hx
      · rw [hk, hr]
      · exact h3 x hx

theorem addMultis_spec (get : Int → List Rule) (ks : List Int) (t : Tables) :
    ∃ (rs : List Rule) (ms : List MultiRule),
      addMultis get ks t.rules.length t = { t with rules := t.rules ++ rs, multi := t.multi ++ ms } ∧
      ms.map (·.token) = ks ∧
      ∀ m ∈ ms, Go.slice (t.rules ++ rs) m.lowRule m.highRule = some (get m.token) := by
  induction ks generalizing t with
  | nil => exact ⟨[], [], by simp [addMultis], rfl, by simp⟩
  | cons k ks ih =>
    obtain ⟨rs, ms, h1, h2, h3⟩ := ih { t with
      rules := t.rules ++ get k, multi := t.multi ++ [⟨k, t.rules.length, t.rules.length + (get k).length⟩] }
    refine ⟨get k ++ rs, ⟨k, t.rules.length, t.rules.length + (get k).length⟩ :: ms, ?_, by simp [h2], ?_⟩
    · rw [addMultis]
      simp only [List.length_append] at h1
      rw [h1]; simp
    · intro m hm
      rcases List.mem_cons.mp hm with rfl | hm
      · rw [Go.slice_nat (Nat.le_add_right _ _) (by simp)]
        simp
      · have := h3 m hm
        simpa using this

/-- The rules of a map entry are recorded under their keys. -/
structure Keyed (keys : Finset Int) (get : Int → List Rule) : Prop where
  some : ∀ k, k ∈ keys ↔ get k ≠ []
  token : ∀ k, ∀ r ∈ get k, r.token = k

theorem buildState_spec {keys : Finset Int} {get : Int → List Rule} (hk : Keyed keys get) (types : BitVec 64) (t : Tables) :
    ∃ t' gs, buildState types keys get t = some t' ∧ t'.states = t.states ++ [gs] ∧ gs.types = types ∧
      t.rules <+: t'.rules ∧ t.multi <+: t'.multi ∧ Desc t' gs keys get := by
  have hs : ∀ k ∈ rKeys keys get, ∃ r : Rule, get k = [r] ∧ r.token = k := by
    intro k hk'
    rw [rKeys, mem_sorted, Finset.mem_filter] at hk'
    have h1 := (hk.some k).mp hk'.1
    obtain ⟨r, rs, hr⟩ := List.exists_cons_of_ne_nil h1
    have h2 := hk'.2
    rw [hr] at h2
    have : rs = [] := by
      cases rs with
      | nil => rfl
      | cons a b => simp at h2
    subst this
    exact ⟨r, hr, hk.token k r (by simp [hr])⟩
  obtain ⟨rs, h1, h2, h3⟩ := addSingles_spec get (rKeys keys get)
    (writeState types t (rKeys keys get).length (mKeys keys get).length) hs
  generalize hg : (⟨types, if (mKeys keys get).length > 0 then t.multi.length else 0,
    (if (mKeys keys get).length > 0 then t.multi.length else 0) + (mKeys keys get).length,
    if (rKeys keys get).length > 0 then t.rules.length else 0,
    (if (rKeys keys get).length > 0 then t.rules.length else 0) + (rKeys keys get).length⟩ : GState) = gs
  have hw : writeState types t (rKeys keys get).length (mKeys keys get).length = ⟨t.states ++ [gs], t.multi, t.rules⟩ := by
    rw [← hg]; rfl
  rw [hw] at h1
  obtain ⟨rs2, ms, h4, h5, h6⟩ := addMultis_spec get (mKeys keys get) ⟨t.states ++ [gs], t.multi, t.rules ++ rs⟩
  refine ⟨⟨t.states ++ [gs], t.multi ++ ms, t.rules ++ rs ++ rs2⟩, gs, ?_, rfl, by rw [← hg], by simp, by simp, ?_⟩
  · simp only [buildState, hw, h1, Option.map_some]
    exact congrArg some h4
  have hl1 : (rKeys keys get).length = rs.length := by rw [← h2]; simp
  have hl2 : (mKeys keys get).length = ms.length := by rw [← h5]; simp
  refine ⟨rs, ms, ?_, ?_, h2, h3, h5, ?_⟩
  · rw [← hg]; simp only [hl1]
    by_cases h : rs.length > 0
    · rw [if_pos h, Go.slice_nat (by omega) (by simp)]; simp
    · have : rs = [] := by simpa using h
      subst this; simp [Go.slice]; omega
  · rw [← hg]; simp only [hl2]
    by_cases h : ms.length > 0
    · rw [if_pos h, Go.slice_nat (by omega) (by simp)]; simp
    · have : ms = [] := by simpa using h
      subst this; simp [Go.slice]
  · intro m hm
    exact h6 m hm

theorem buildTables_spec (pr : PR) (es : List Entry) (t : Tables) (hk : ∀ e ∈ es, Keyed e.keys (pr.slot e)) :
    ∃ t' gss, buildTables pr es t = some t' ∧ t'.states = t.states ++ gss ∧ t.rules <+: t'.rules ∧ t.multi <+: t'.multi ∧
      List.Forall₂ (fun (e : Entry) (gs : GState) => gs.types = e.types ∧ Desc t' gs e.keys (pr.slot e)) es gss := by
  induction es generalizing t with
  | nil => exact ⟨t, [], rfl, by simp, List.prefix_rfl, List.prefix_rfl, .nil⟩
  | cons e es ih =>
    obtain ⟨t1, gs, a1, a2, a3, a4, a5, a6⟩ := buildState_spec (hk e (by simp)) e.types t
    obtain ⟨t2, gss, b1, b2, b3, b4, b5⟩ := ih t1 (fun e he => hk e (by simp [he]))
    refine ⟨t2, gs :: gss, ?_, by simp [b2, a2], a4.trans b3, a5.trans b4, .cons ⟨a3, a6.mono b3 b4⟩ b5⟩
    rw [buildTables, a1]; exact b1

/-- The rules of the first key having rules. -/
def firstWith (f : Int → List Rule) : List Int → List Rule
  | [] => []
  | k :: ks => if f k = [] then firstWith f ks else f k

theorem findKey_spec {all rs : List Rule} {ms : List MultiRule} {keys : Finset Int} {get : Int → List Rule}
    (hk : Keyed keys get) (h1 : rs.map (·.token) = rKeys keys get) (h2 : ∀ r ∈ rs, get r.token = [r])
    (h3 : ms.map (·.token) = mKeys keys get) (h4 : ∀ m ∈ ms, Go.slice all m.lowRule m.highRule = some (get m.token))
    (key : Int) : findKey all rs ms key = some (if get key = [] then none else some (get key)) := by
  have hr : key ∈ rs.map (·.token) ↔ get key ≠ [] ∧ ¬ (get key).length > 1 := by
    rw [h1, rKeys, mem_sorted, Finset.mem_filter, hk.some]
  have hm : key ∈ ms.map (·.token) ↔ get key ≠ [] ∧ (get key).length > 1 := by
    rw [h3, mKeys, mem_sorted, Finset.mem_filter, hk.some]
  unfold findKey
  simp only []
  by_cases hc : key ∈ rs.map (·.token)
  · obtain ⟨r, hrm, hrt⟩ := List.mem_map.mp hc
    have hse := search_mem rs (·.token) (h1 ▸ sorted_sortedLT _) hrm hrt
    set idx := search rs.length fun i => decide (((rs[i]?).map (·.token)).getD 0 ≥ key)
    have hlt : idx < rs.length := by
      by_contra h; rw [List.getElem?_eq_none (by omega)] at hse; cases hse
    rw [if_pos ⟨hlt, by rw [hse]; simp [hrt]⟩]
    have he : get key = [r] := hrt ▸ h2 r hrm
    have := Go.slice_nat (a := rs) (lo := idx) (hi := idx + 1) (by omega) (by omega)
    rw [if_neg (by simp [he])]
    push_cast at this
    rw [this, he]
    have h5 : rs[idx] = r := by
      rw [List.getElem?_eq_getElem hlt] at hse; exact Option.some.inj hse
    rw [List.drop_eq_getElem_cons hlt, h5]
    simp
  · rw [if_neg]
    · by_cases hc2 : key ∈ ms.map (·.token)
      · obtain ⟨m, hmm, hmt⟩ := List.mem_map.mp hc2
        have hse := search_mem ms (·.token) (h3 ▸ sorted_sortedLT _) hmm hmt
        rw [hse]
        simp only []
        rw [if_pos hmt, h4 m hmm, hmt, if_neg (hm.mp hc2).1]
        rfl
      · have he : get key = [] := by
          by_contra hne
          by_cases hg : (get key).length > 1
          · exact hc2 (hm.mpr ⟨hne, hg⟩)
          · exact hc (hr.mpr ⟨hne, hg⟩)
        rw [if_pos he]
        generalize hx : ms[search ms.length fun i => decide (((ms[i]?).map (·.token)).getD 0 ≥ key)]? = x
        cases x with
        | none => rfl
        | some m =>
          simp only []
          rw [if_neg]
          intro hmt
          exact hc2 (List.mem_map.mpr ⟨m, List.mem_of_getElem? hx, hmt⟩)
    · rintro ⟨-, h⟩
      obtain ⟨r, hr1, hr2⟩ := Option.map_eq_some_iff.mp h
      exact hc (List.mem_map.mpr ⟨r, List.mem_of_getElem? hr1, hr2⟩)

theorem findKeys_spec {all rs : List Rule} {ms : List MultiRule} {keys : Finset Int} {get : Int → List Rule}
    (hk : Keyed keys get) (h1 : rs.map (·.token) = rKeys keys get) (h2 : ∀ r ∈ rs, get r.token = [r])
    (h3 : ms.map (·.token) = mKeys keys get) (h4 : ∀ m ∈ ms, Go.slice all m.lowRule m.highRule = some (get m.token))
    (ks : List Int) : findKeys all rs ms ks = some (firstWith get ks) := by
  induction ks with
  | nil => rfl
  | cons k ks ih =>
    rw [findKeys, firstWith]
    by_cases hc : k = anyToken ∧ (rs.head?).map (·.token) = some k
    · rw [if_pos hc]
      cases rs with
      | nil => simp at hc
      | cons r rs =>
        have hrk : r.token = k := by simpa using hc.2
        have he : get k = [r] := hrk ▸ h2 r (by simp)
        rw [if_neg (by simp [he]), he]
        simp [Go.slice]
    · rw [if_neg hc, findKey_spec hk h1 h2 h3 h4]
      by_cases he : get k = []
      · rw [if_pos he, if_pos he]; exact ih
      · rw [if_neg he, if_neg he]

theorem findRulesBy_spec {t : Tables} {gs : GState} {keys : Finset Int} {get : Int → List Rule} (hk : Keyed keys get)
    (h : Desc t gs keys get) (ks : List Int) : findRulesBy t gs ks = some (firstWith get ks) := by
  obtain ⟨rs, ms, a, b, c, d, e, f⟩ := h
  rw [findRulesBy, a, Option.bind_some, b, Option.bind_some, findKeys_spec hk c d e f]

end Verif.Proof
