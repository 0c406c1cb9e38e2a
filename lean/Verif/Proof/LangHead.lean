/-
Reading of directives and definitions of tokens.
-/
import Verif.Proof.LangTable

namespace Verif.Proof.LangDef

open Verif.Model Verif.Model.LangDef Verif.Spec.LangDef

/-- Flags collected so far. -/
def rawFlags (items : List HeadItem) (n : List Nat) : TokenFlags where
  external := listed items .extern n
  side := listed items .side n
  error := listed items .error n
  caseless := listed items .caseless n
  noLiterals := allowed items n

/-- Facts about a list of items. -/
def viewOf (items : List HeadItem) (D T : List (List Nat × List Nat)) (early : List (List Nat)) : View where
  defs := D
  early := early
  grp n := lastGroup n 0 (groups items)
  flg := rawFlags items
  lits := enlistDecl [] (items.flatMap HeadItem.lits)
  tmpl := T
  ngroups := (groups items).length
  rt := typesRestricted items
  rl := litsRestricted items
  layers := items.flatMap HeadItem.layers

/-- The context represents items. -/
structure Hd (items : List HeadItem) (D T : List (List Nat × List Nat)) (early : List (List Nat)) (c : Ctx) : Prop where
  view : HInv (viewOf items D T early) c
  undef : early.filter (fun n => !(D.map Prod.fst).contains n) = undefinedTypes items D
  full : ∀ p ∈ T, p.2 ≠ []
  sub : ∀ n ∈ early, n ∈ items.flatMap HeadItem.mentions

def mentionE (D : List (List Nat × List Nat)) (early : List (List Nat)) (n : List Nat) : List (List Nat) :=
  if n ∈ D.map Prod.fst then early else enlist early [n]

theorem mention_eq (V : View) (n : List Nat) : V.mention n = { V with early := mentionE V.defs V.early n } := by
  unfold View.mention mentionE
  by_cases h : V.has n
  · rw [if_pos h, if_pos (by exact h)]
  · rw [if_neg h, if_neg (by exact h)]

theorem mem_enlist (l ms : List (List Nat)) (n : List Nat) : n ∈ enlist l ms ↔ n ∈ l ∨ n ∈ ms := by
  induction ms generalizing l with
  | nil => simp [enlist]
  | cons m ms ih =>
    rw [enlist, ih]
    split
    · next h =>
      constructor
      · rintro (h1 | h1)
        · exact .inl h1
        · exact .inr (by simp [h1])
      · rintro (h1 | h1)
        · exact .inl h1
        · rcases List.mem_cons.1 h1 with rfl | h1
          · exact .inl h
          · exact .inr h1
    · simp only [List.mem_append, List.mem_singleton, List.mem_cons]
      tauto

theorem mention_filter {D : List (List Nat × List Nat)} {early ms : List (List Nat)} {n : List Nat}
    (h : early.filter (fun n => !(D.map Prod.fst).contains n) = (enlist [] ms).filter (fun n => !(D.map Prod.fst).contains n)) :
    (mentionE D early n).filter (fun n => !(D.map Prod.fst).contains n) =
      (enlist [] (ms ++ [n])).filter (fun n => !(D.map Prod.fst).contains n) := by
  rw [enlist_append]
  unfold mentionE
  by_cases hn : n ∈ D.map Prod.fst
  · rw [if_pos hn, h, enlist, enlist]
    split
    · rfl
    · rw [List.filter_append]
      have : (List.filter (fun n => !(D.map Prod.fst).contains n) [n]) = [] := by
        simp only [List.filter_cons, List.filter_nil]
        rw [if_neg]
        simpa using hn
      rw [this, List.append_nil]
  · rw [if_neg hn]
    have hp : (!(D.map Prod.fst).contains n) = true := by simpa using hn
    have hiff : n ∈ early ↔ n ∈ enlist [] ms := by
      have h1 : n ∈ early ↔ n ∈ early.filter (fun n => !(D.map Prod.fst).contains n) := by
        rw [List.mem_filter]; exact ⟨fun h => ⟨h, hp⟩, fun h => h.1⟩
      have h2 : n ∈ enlist [] ms ↔ n ∈ (enlist [] ms).filter (fun n => !(D.map Prod.fst).contains n) := by
        rw [List.mem_filter]; exact ⟨fun h => ⟨h, hp⟩, fun h => h.1⟩
      rw [h1, h2, h]
    rw [enlist, enlist, enlist, enlist]
    by_cases he : n ∈ early
    · rw [if_pos he, if_pos (hiff.1 he), h]
    · rw [if_neg he, if_neg (fun h => he (hiff.2 h)), List.filter_append, List.filter_append, h]

theorem enlistDecl_append (l a b : List (List Nat × Bool)) : enlistDecl l (a ++ b) = enlistDecl (enlistDecl l a) b := by
  induction a generalizing l with
  | nil => rfl
  | cons m a ih => simp only [List.cons_append, enlistDecl, ih]

theorem lastGroup_snoc (n : List Nat) (g : List (List Nat)) : ∀ (gs : List (List (List Nat))) (k : Nat),
    lastGroup n k (gs ++ [g]) = if n ∈ g then k + gs.length + 1 else lastGroup n k gs
  | [], k => by simp [lastGroup]
  | g' :: gs, k => by
    rw [List.cons_append, lastGroup, lastGroup_snoc n g gs (k + 1), lastGroup]
    by_cases h : n ∈ g
    · simp only [if_pos h]
      rw [if_pos (by omega)]
      simp only [List.length_cons]
      omega
    · simp only [if_neg h]

theorem groups_append (a b : List HeadItem) : groups (a ++ b) = groups a ++ groups b := by simp [groups]

/-! Directives with types -/

/-- Flag of a directive. -/
def Dir.flag : Dir → TokenFlags
  | .side => { side := true }
  | .caseless => { caseless := true }
  | .extern => { external := true }
  | .error => { error := true }

theorem dirFlag_word (d : Dir) : dirFlag d.word = Dir.flag d := by cases d <;> decide +kernel

theorem rawFlags_snoc (items : List HeadItem) (d : Dir) (ns : List (List Nat)) (n m : List Nat) :
    rawFlags (items ++ [.flags d (ns ++ [n])]) m =
      if m = n then orFlags (rawFlags (items ++ [.flags d ns]) n) (Dir.flag d) else rawFlags (items ++ [.flags d ns]) m := by
  by_cases hm : m = n
  · subst hm
    rw [if_pos rfl]
    cases d <;> simp [rawFlags, listed, allowed, orFlags, Dir.flag]
  · rw [if_neg hm]
    cases d <;> simp [rawFlags, listed, allowed, hm]

theorem flags_view (items : List HeadItem) (D T : List (List Nat × List Nat)) (early : List (List Nat)) (d : Dir) (ns : List (List Nat)) (n : List Nat) :
    ({ (viewOf (items ++ [.flags d ns]) D T early).mention n with
        flg := fun m => if m = n then orFlags ((viewOf (items ++ [.flags d ns]) D T early).flg n) (Dir.flag d)
          else (viewOf (items ++ [.flags d ns]) D T early).flg m } : View) =
      viewOf (items ++ [.flags d (ns ++ [n])]) D T (mentionE D early n) := by
  rw [mention_eq]
  have : rawFlags (items ++ [.flags d (ns ++ [n])]) = fun m => if m = n then orFlags (rawFlags (items ++ [.flags d ns]) n) (Dir.flag d)
      else rawFlags (items ++ [.flags d ns]) m := by
    funext m; exact rawFlags_snoc items d ns n m
  unfold viewOf
  rw [this]
  simp [groups, typesRestricted, litsRestricted, HeadItem.lits, HeadItem.layers]

theorem flags_nil (items : List HeadItem) (d : Dir) : rawFlags (items ++ [.flags d []]) = rawFlags items := by
  funext m
  simp [rawFlags, listed, allowed]

theorem Hd.flags_start {items : List HeadItem} {D T : List (List Nat × List Nat)} {early : List (List Nat)} {c : Ctx} (h : Hd items D T early c)
    (d : Dir) : Hd (items ++ [.flags d []]) D T early c where
  view := by
    have : viewOf (items ++ [.flags d []]) D T early = viewOf items D T early := by
      unfold viewOf
      rw [flags_nil]
      simp [groups, typesRestricted, litsRestricted, HeadItem.lits, HeadItem.layers]
    rw [this]; exact h.view
  undef := by rw [h.undef]; simp [undefinedTypes, HeadItem.mentions]
  full := h.full
  sub := fun n hn => by simpa [HeadItem.mentions] using h.sub n hn

theorem undef_step {items items' : List HeadItem} {D : List (List Nat × List Nat)} {early : List (List Nat)} {n : List Nat}
    (h : early.filter (fun n => !(D.map Prod.fst).contains n) = undefinedTypes items D)
    (hm : items'.flatMap HeadItem.mentions = items.flatMap HeadItem.mentions ++ [n]) :
    (mentionE D early n).filter (fun n => !(D.map Prod.fst).contains n) = undefinedTypes items' D := by
  unfold undefinedTypes at h ⊢
  rw [hm]
  exact mention_filter h

theorem sub_step {D : List (List Nat × List Nat)} {early ms ms' : List (List Nat)} {n : List Nat} (h : ∀ m ∈ early, m ∈ ms) (hm : ms' = ms ++ [n]) :
    ∀ m ∈ mentionE D early n, m ∈ ms' := by
  intro m hx
  rw [hm]
  unfold mentionE at hx
  split at hx
  · exact List.mem_append_left _ (h m hx)
  · rw [mem_enlist] at hx
    rcases hx with hx | hx
    · exact List.mem_append_left _ (h m hx)
    · exact List.mem_append_right _ hx

theorem addFlags_view {items : List HeadItem} {D T : List (List Nat × List Nat)} (d : Dir) : ∀ (ns : List (List Nat)) (ts : List LTok)
    (ns0 : List (List Nat)) (early : List (List Nat)) (c : Ctx), EachTok (fun n t => t = typeTok n) ns ts →
    Hd (items ++ [.flags d ns0]) D T early c → ∃ c' early', addFlags (Dir.flag d) ts c = some c' ∧ Hd (items ++ [.flags d (ns0 ++ ns)]) D T early' c'
  | _, _, ns0, early, c, .nil, h => ⟨c, early, rfl, by simpa using h⟩
  | n :: ns, t :: ts, ns0, early, c, .cons ht hts, h => by
    subst ht
    obtain ⟨c1, h1, h2⟩ := addFlag_hinv h.view n (Dir.flag d) (by cases d <;> rfl)
    rw [flags_view] at h2
    obtain ⟨c2, early', h3, h4⟩ := addFlags_view d ns ts (ns0 ++ [n]) (mentionE D early n) c1 hts
      ⟨h2, undef_step h.undef (by simp [HeadItem.mentions]), h.full,
        sub_step h.sub (by simp [HeadItem.mentions])⟩
    refine ⟨c2, early', ?_, by simpa using h4⟩
    rw [addFlags, show (typeTok n).text = 36 :: n from rfl, tail1_cons]
    simp only [Option.bind_some, h1, h3]

/-! Groups -/

theorem group_view (items : List HeadItem) (D T : List (List Nat × List Nat)) (early : List (List Nat)) (ns : List (List Nat)) (n : List Nat) :
    ({ (viewOf (items ++ [.group ns]) D T early).mention n with
        grp := fun m => if m = n then (viewOf (items ++ [.group ns]) D T early).ngroups
          else (viewOf (items ++ [.group ns]) D T early).grp m } : View) =
      viewOf (items ++ [.group (ns ++ [n])]) D T (mentionE D early n) := by
  rw [mention_eq]
  have hf : rawFlags (items ++ [.group (ns ++ [n])]) = rawFlags (items ++ [.group ns]) := by
    funext m; simp [rawFlags, listed, allowed]
  have hg : ∀ xs, groups (items ++ [.group xs]) = groups items ++ [xs] := by intro xs; simp [groups]
  have hl : (fun m => lastGroup m 0 (groups (items ++ [.group (ns ++ [n])]))) = fun m =>
      if m = n then (groups (items ++ [.group ns])).length else lastGroup m 0 (groups (items ++ [.group ns])) := by
    funext m
    rw [hg, hg, lastGroup_snoc, lastGroup_snoc]
    by_cases hm : m = n
    · subst hm
      simp
    · simp [hm]
  unfold viewOf
  rw [hf, hl]
  simp [groups, typesRestricted, litsRestricted, HeadItem.lits, HeadItem.layers]

theorem Hd.group_start {items : List HeadItem} {D T : List (List Nat × List Nat)} {early : List (List Nat)} {c : Ctx} (h : Hd items D T early c) :
    Hd (items ++ [.group []]) D T early { c with currentGroup := c.currentGroup + 1 } where
  view := by
    have hf : rawFlags (items ++ [.group []]) = rawFlags items := by
      funext m; simp [rawFlags, listed, allowed]
    have : viewOf (items ++ [.group []]) D T early = { viewOf items D T early with ngroups := (viewOf items D T early).ngroups + 1 } := by
      unfold viewOf
      rw [hf]
      have hg : groups (items ++ [.group []]) = groups items ++ [[]] := by simp [groups]
      simp only [hg, lastGroup_snoc]
      simp [typesRestricted, litsRestricted, HeadItem.lits, HeadItem.layers]
    rw [this]
    exact { h.view with ngroups := by dsimp only; rw [h.view.ngroups] }
  undef := by rw [h.undef]; simp [undefinedTypes, HeadItem.mentions]
  full := h.full
  sub := fun n hn => by simpa [HeadItem.mentions] using h.sub n hn

theorem addGroups_view {items : List HeadItem} {D T : List (List Nat × List Nat)} : ∀ (ns : List (List Nat)) (ts : List LTok)
    (ns0 : List (List Nat)) (early : List (List Nat)) (c c' : Ctx), EachTok (fun n t => t = typeTok n) ns ts →
    Hd (items ++ [.group ns0]) D T early c → addGroups ts c = .done (.ok c') → ∃ early', Hd (items ++ [.group (ns0 ++ ns)]) D T early' c'
  | _, _, ns0, early, c, c', .nil, h, hr => by
    rw [addGroups] at hr
    cases hr
    exact ⟨early, by simpa using h⟩
  | n :: ns, t :: ts, ns0, early, c, c', .cons ht hts, h, hr => by
    subst ht
    rw [addGroups, show (typeTok n).text = 36 :: n from rfl, tail1_cons] at hr
    simp only [orPanic] at hr
    cases hx : c.tokenIndex.lookup n with
    | some i =>
      rw [hx] at hr
      obtain ⟨re, h1, h2, h3⟩ := setGroup_hinv h.view hx
      simp only [h1] at hr
      split at hr
      · cases hr
      · have hv := group_view items D T early ns0 n
        rw [h2] at hv
        rw [hv] at h3
        obtain ⟨early', h4⟩ := addGroups_view ns ts (ns0 ++ [n]) (mentionE D early n) _ c' hts
          ⟨h3, undef_step h.undef (by simp [HeadItem.mentions]), h.full,
        sub_step h.sub (by simp [HeadItem.mentions])⟩ hr
        exact ⟨early', by simpa using h4⟩
    | none =>
      have hn : ¬ (viewOf (items ++ [.group ns0]) D T early).has n := by
        rw [h.view.tokenIndex] at hx
        exact findIdx?_none.1 hx
      rw [hx] at hr
      obtain ⟨es, h1, h2⟩ := addGroup_hinv h.view n hn
      dsimp only at hr
      rw [h1] at hr
      dsimp only at hr
      rw [group_view] at h2
      obtain ⟨early', h4⟩ := addGroups_view ns ts (ns0 ++ [n]) (mentionE D early n) _ c' hts
        ⟨h2, undef_step h.undef (by simp [HeadItem.mentions]), h.full,
        sub_step h.sub (by simp [HeadItem.mentions])⟩ hr
      exact ⟨early', by simpa using h4⟩

/-! Literals -/

theorem reserved_same (items : List HeadItem) (ls : List (List Nat)) : rawFlags (items ++ [.reserved ls]) = rawFlags items := by
  funext m; simp [rawFlags, listed, allowed]

theorem addReserved_view {items : List HeadItem} {D T : List (List Nat × List Nat)} {early : List (List Nat)} : ∀ (ls : List (List Nat)) (ts : List LTok)
    (ls0 : List (List Nat)) (c : Ctx), EachTok IsString ls ts →
    Hd (items ++ [.reserved ls0]) D T early c → ∃ c', addReserved ts c = some c' ∧ Hd (items ++ [.reserved (ls0 ++ ls)]) D T early c'
  | _, _, ls0, c, .nil, h => ⟨c, rfl, by simpa using h⟩
  | n :: ls, t :: ts, ls0, c, .cons ht hts, h => by
    obtain ⟨q, rfl⟩ := ht
    have h1 := addLit_hinv h.view n true
    have hv : ({ viewOf (items ++ [.reserved ls0]) D T early with lits := enlistDecl (viewOf (items ++ [.reserved ls0]) D T early).lits [(n, true)] } : View) =
        viewOf (items ++ [.reserved (ls0 ++ [n])]) D T early := by
      unfold viewOf
      rw [reserved_same, reserved_same]
      have : (items ++ [HeadItem.reserved (ls0 ++ [n])]).flatMap HeadItem.lits = (items ++ [HeadItem.reserved ls0]).flatMap HeadItem.lits ++ [(n, true)] := by
        simp [HeadItem.lits]
      rw [this, enlistDecl_append]
      simp [groups, typesRestricted, litsRestricted, HeadItem.layers]
    rw [hv] at h1
    obtain ⟨c2, h3, h4⟩ := addReserved_view (items := items) ls ts (ls0 ++ [n]) _ hts
      ⟨h1, by rw [h.undef]; simp [undefinedTypes, HeadItem.mentions], h.full,
        fun n hn => by simpa [HeadItem.mentions] using h.sub n hn⟩
    refine ⟨c2, ?_, by simpa using h4⟩
    rw [addReserved]
    dsimp only
    rw [inner_some]
    exact h3

theorem Hd.reserved_start {items : List HeadItem} {D T : List (List Nat × List Nat)} {early : List (List Nat)} {c : Ctx} (h : Hd items D T early c) :
    Hd (items ++ [.reserved []]) D T early c where
  view := by
    have : viewOf (items ++ [.reserved []]) D T early = viewOf items D T early := by
      unfold viewOf
      rw [reserved_same]
      simp [groups, typesRestricted, litsRestricted, HeadItem.lits, HeadItem.layers]
    rw [this]; exact h.view
  undef := by rw [h.undef]; simp [undefinedTypes, HeadItem.mentions]
  full := h.full
  sub := fun n hn => by simpa [HeadItem.mentions] using h.sub n hn

theorem Hd.literal_start {items : List HeadItem} {D T : List (List Nat × List Nat)} {early : List (List Nat)} {c : Ctx} (h : Hd items D T early c) :
    Hd (items ++ [.literal []]) D T early c where
  view := by
    have hf : rawFlags (items ++ [.literal []]) = rawFlags items := by
      funext m; simp [rawFlags, listed, allowed]
    have : viewOf (items ++ [.literal []]) D T early = viewOf items D T early := by
      unfold viewOf
      rw [hf]
      simp [groups, typesRestricted, litsRestricted, HeadItem.lits, HeadItem.layers]
    rw [this]; exact h.view
  undef := by rw [h.undef]; simp [undefinedTypes, HeadItem.mentions]
  full := h.full
  sub := fun n hn => by simpa [HeadItem.mentions] using h.sub n hn

theorem litType_view (items : List HeadItem) (D T : List (List Nat × List Nat)) (early : List (List Nat)) (as : List LitArg) (n : List Nat) :
    ({ ({ viewOf (items ++ [.literal as]) D T early with rt := true } : View).mention n with
        flg := fun m => if m = n then orFlags ((viewOf (items ++ [.literal as]) D T early).flg n) { noLiterals := true }
          else (viewOf (items ++ [.literal as]) D T early).flg m } : View) =
      viewOf (items ++ [.literal (as ++ [.type n])]) D T (mentionE D early n) := by
  rw [mention_eq]
  have hf : rawFlags (items ++ [.literal (as ++ [.type n])]) = fun m => if m = n then orFlags (rawFlags (items ++ [.literal as]) n) { noLiterals := true }
      else rawFlags (items ++ [.literal as]) m := by
    funext m
    by_cases hm : m = n
    · subst hm
      simp [rawFlags, listed, allowed, orFlags]
    · simp [rawFlags, listed, allowed, hm]
  unfold viewOf
  rw [hf]
  simp [groups, typesRestricted, litsRestricted, HeadItem.lits, HeadItem.layers]

theorem addLiterals_view {items : List HeadItem} {D T : List (List Nat × List Nat)} : ∀ (as : List LitArg) (ts : List LTok)
    (as0 : List LitArg) (early : List (List Nat)) (c : Ctx), EachTok IsLitArg as ts →
    Hd (items ++ [.literal as0]) D T early c → ∃ c' early', addLiterals ts c = some c' ∧ Hd (items ++ [.literal (as0 ++ as)]) D T early' c'
  | _, _, as0, early, c, .nil, h => ⟨c, early, rfl, by simpa using h⟩
  | .type n :: as, t :: ts, as0, early, c, .cons ht hts, h => by
    have ht' : t = typeTok n := ht
    subst ht'
    have h0 : HInv { viewOf (items ++ [.literal as0]) D T early with rt := true } { c with restrictLiteralTypes := true } :=
      { h.view with rt := rfl }
    obtain ⟨c1, h1, h2⟩ := addFlag_hinv h0 n { noLiterals := true } rfl
    rw [litType_view] at h2
    obtain ⟨c2, early', h3, h4⟩ := addLiterals_view as ts (as0 ++ [.type n]) (mentionE D early n) c1 hts
      ⟨h2, undef_step h.undef (by simp [HeadItem.mentions]), h.full,
        sub_step h.sub (by simp [HeadItem.mentions])⟩
    refine ⟨c2, early', ?_, by simpa using h4⟩
    rw [addLiterals, if_pos (show (typeTok n).kind = .tokenName from rfl), show (typeTok n).text = 36 :: n from rfl, tail1_cons]
    simp only [Option.bind_some, h1, h3]
  | .literal n :: as, t :: ts, as0, early, c, .cons ht hts, h => by
    obtain ⟨q, rfl⟩ := ht
    have h0 : HInv { viewOf (items ++ [.literal as0]) D T early with rl := true } { c with restrictLiterals := true } :=
      { h.view with rl := rfl }
    have h1 := addLit_hinv h0 n false
    have hv : ({ viewOf (items ++ [.literal as0]) D T early with rl := true, lits := enlistDecl (viewOf (items ++ [.literal as0]) D T early).lits [(n, false)] } : View) =
        viewOf (items ++ [.literal (as0 ++ [.literal n])]) D T early := by
      have hf : rawFlags (items ++ [.literal (as0 ++ [.literal n])]) = rawFlags (items ++ [.literal as0]) := by
        funext m; simp [rawFlags, listed, allowed]
      unfold viewOf
      rw [hf]
      have : (items ++ [HeadItem.literal (as0 ++ [.literal n])]).flatMap HeadItem.lits = (items ++ [HeadItem.literal as0]).flatMap HeadItem.lits ++ [(n, false)] := by
        simp [HeadItem.lits]
      rw [this, enlistDecl_append]
      simp [groups, typesRestricted, litsRestricted, HeadItem.layers]
    dsimp only at h1
    rw [hv] at h1
    obtain ⟨c2, early', h3, h4⟩ := addLiterals_view (items := items) as ts (as0 ++ [.literal n]) early _ hts
      ⟨h1, by rw [h.undef]; simp [undefinedTypes, HeadItem.mentions], h.full,
        fun n hn => by simpa [HeadItem.mentions] using h.sub n hn⟩
    refine ⟨c2, early', ?_, by simpa using h4⟩
    rw [addLiterals, if_neg (fun h => by cases h)]
    dsimp only
    rw [inner_some]
    exact h3

/-! Layers and definitions -/

theorem Hd.layer {items : List HeadItem} {D T : List (List Nat × List Nat)} {early : List (List Nat)} {c : Ctx} (h : Hd items D T early c) (l : LayerDef) :
    Hd (items ++ [.layer l]) D T early { c with layers := c.layers ++ [l] } where
  view := by
    have hf : rawFlags (items ++ [.layer l]) = rawFlags items := by
      funext m; simp [rawFlags, listed, allowed]
    have : viewOf (items ++ [.layer l]) D T early = { viewOf items D T early with layers := (viewOf items D T early).layers ++ [l] } := by
      unfold viewOf
      rw [hf]
      simp [groups, typesRestricted, litsRestricted, HeadItem.lits, HeadItem.layers]
    rw [this]
    exact { h.view with layers := by dsimp only; rw [h.view.layers] }
  undef := by rw [h.undef]; simp [undefinedTypes, HeadItem.mentions]
  full := h.full
  sub := fun n hn => by simpa [HeadItem.mentions] using h.sub n hn

theorem lookup_snoc (T : List (List Nat × List Nat)) (n re m : List Nat) (hn : n ∉ T.map Prod.fst) :
    (T ++ [(n, re)]).lookup m = if m = n then some re else T.lookup m := by
  induction T with
  | nil =>
    by_cases h : m = n
    · simp [h]
    · have : (m == n) = false := by simpa using h
      simp [List.lookup_cons, h, this]
  | cons p T ih =>
    obtain ⟨k, v⟩ := p
    simp only [List.map_cons, List.mem_cons, not_or] at hn
    rw [List.cons_append, List.lookup_cons, List.lookup_cons, ih hn.2]
    by_cases hk : m = k
    · subst hk
      have : ¬ m = n := fun e => hn.1 e.symm
      simp [this]
    · have : (m == k) = false := by simpa using hk
      rw [this]

theorem lookup_isSome {T : List (List Nat × List Nat)} {n : List Nat} : (T.lookup n).isSome ↔ n ∈ T.map Prod.fst := by
  induction T with
  | nil => simp
  | cons p T ih =>
    obtain ⟨k, v⟩ := p
    rw [List.lookup_cons]
    by_cases hk : n = k
    · subst hk
      simp
    · have : (n == k) = false := by simpa using hk
      rw [this]
      simp only [List.map_cons, List.mem_cons, hk, false_or]
      exact ih

theorem Hd.template {items : List HeadItem} {D T : List (List Nat × List Nat)} {early : List (List Nat)} {c : Ctx} (h : Hd items D T early c)
    {n re : List Nat} (ps : List Part) (hn : n ∉ T.map Prod.fst) (hre : re ≠ []) :
    Hd (items ++ [.template n ps]) D (T ++ [(n, re)]) early { c with templates := (n, re) :: c.templates } where
  view := by
    have hf : rawFlags (items ++ [.template n ps]) = rawFlags items := by
      funext m; simp [rawFlags, listed, allowed]
    have : viewOf (items ++ [.template n ps]) D (T ++ [(n, re)]) early = { viewOf items D T early with tmpl := T ++ [(n, re)] } := by
      unfold viewOf
      rw [hf]
      simp [groups, typesRestricted, litsRestricted, HeadItem.lits, HeadItem.layers]
    rw [this]
    exact { h.view with
      tmpl := by
        intro m
        dsimp only
        rw [List.lookup_cons, lookup_snoc T n re m hn]
        by_cases hm : m = n
        · simp [hm]
        · have hb : (m == n) = false := by simpa using hm
          rw [hb, if_neg hm]
          exact h.view.tmpl m }
  undef := by rw [h.undef]; simp [undefinedTypes, HeadItem.mentions]
  full := by
    intro p hp
    rcases List.mem_append.1 hp with hp | hp
    · exact h.full p hp
    · simp only [List.mem_singleton] at hp
      rw [hp]; exact hre
  sub := fun n hn => by simpa [HeadItem.mentions] using h.sub n hn

theorem Hd.token {items : List HeadItem} {D T : List (List Nat × List Nat)} {early : List (List Nat)} {c : Ctx} (h : Hd items D T early c)
    {n re : List Nat} (ps : List Part) (hn : n ∉ D.map Prod.fst) (hre : re ≠ []) :
    ∃ c', addToken c n re {} = some c' ∧ Hd (items ++ [.token n ps]) (D ++ [(n, re)]) T early c' := by
  obtain ⟨c', h1, h2⟩ := addToken_hinv h.view n re hn hre
  refine ⟨c', h1, ?_, ?_, h.full, fun n hn => by simpa [HeadItem.mentions] using h.sub n hn⟩
  · have hf : rawFlags (items ++ [.token n ps]) = rawFlags items := by
      funext m; simp [rawFlags, listed, allowed]
    have : viewOf (items ++ [.token n ps]) (D ++ [(n, re)]) T early = { viewOf items D T early with defs := D ++ [(n, re)] } := by
      unfold viewOf
      rw [hf]
      simp [groups, typesRestricted, litsRestricted, HeadItem.lits, HeadItem.layers]
    rw [this]
    exact h2
  · have hp : (fun m => !((D ++ [(n, re)]).map Prod.fst).contains m) = fun m => (!(decide (m = n)) && !(D.map Prod.fst).contains m) := by
      funext m
      simp only [List.map_append, List.map_cons, List.map_nil, List.contains_eq_mem, List.mem_append, List.mem_singleton]
      by_cases h1 : m ∈ D.map Prod.fst <;> by_cases h2 : m = n <;> simp [h1, h2]
    have := h.undef
    unfold undefinedTypes at this ⊢
    rw [hp, ← List.filter_filter, ← List.filter_filter, this]
    simp [HeadItem.mentions]

/-! Reading -/

theorem fetchAll_read {types : List (List Nat)} : ∀ (fuel : Nat) (f f' : Feed) (ts : List LTok), Lexed (rest f) →
    fetchAll fuel types f = .done (.ok (ts, f')) → rest f = ts.map .ok ++ rest f' ∧ ∀ t ∈ ts, Match types t
  | 0, _, _, _, _, h => by cases h
  | fuel + 1, f, f', ts, hl, h => by
    rw [fetchAll, bindL_ok] at h
    obtain ⟨⟨t, f1⟩, h1, h⟩ := h
    dsimp only at h
    rcases safe_get (tryFetch_safe hl) h1 with ⟨rfl, g1, g2⟩ | ⟨u, rfl, g1, g2⟩ | ⟨rfl, g1, g2⟩
    · cases h
      exact ⟨by rw [← g1]; rfl, by simp⟩
    · dsimp only at h g1
      rw [bindL_ok] at h
      obtain ⟨⟨ts', f2⟩, h2, h⟩ := h
      cases h
      have hl1 : Lexed (rest f1) := by rw [g1] at hl; exact lexed_tail hl
      obtain ⟨e, hm⟩ := fetchAll_read fuel f1 f2 ts' hl1 h2
      refine ⟨by rw [g1, e]; rfl, ?_⟩
      intro t ht
      rcases List.mem_cons.1 ht with rfl | ht
      · exact g2
      · exact hm t ht
    · dsimp only at h g2
      rw [fetchAll_hangs fuel f1 (by rw [g2]; intro x hx; cases hx)] at h
      cases h

theorem fetchList_read {types : List (List Nat)} {fuel : Nat} {f f' : Feed} {ts : List LTok} (hl : Lexed (rest f))
    (h : fetchList fuel types f = .done (.ok (ts, f'))) : rest f = ts.map .ok ++ .ok (op 59) :: rest f' ∧ ∀ t ∈ ts, Match types t := by
  unfold fetchList at h
  rw [bindL_ok] at h
  obtain ⟨⟨ts', f1⟩, h1, h⟩ := h
  obtain ⟨e, hm⟩ := fetchAll_read fuel f f1 ts' hl h1
  dsimp only at h
  rw [bindL_ok] at h
  obtain ⟨⟨u, f2⟩, h2, h⟩ := h
  have hl1 : Lexed (rest f1) := lexed_suffix hl (by rw [e]; exact List.suffix_append _ _)
  obtain ⟨k1, -⟩ := need_op h2 hl1 (by simp)
  cases h
  exact ⟨by rw [e, k1], hm⟩

/-- Tokens of an input without misleading names. -/
def PlainTok (t : LTok) : Prop :=
  LexTok t ∧ (t.kind = .name → t.text ≠ bytesOf "string" ∧ t.text ≠ bytesOf "token-name") ∧ (t.kind = .regexp → 2 < t.text.length)

theorem plain_tok {l : List (Except LErr LTok)} (h : Plain l) {t : LTok} (ht : .ok t ∈ l) : PlainTok t := by
  obtain ⟨u, hu, h1⟩ := h _ ht
  cases hu
  exact h1

theorem plain_suffix {l l' : List (Except LErr LTok)} (h : Plain l) (hs : l' <:+ l) : Plain l' := fun x hx => h x (hs.subset hx)

theorem type_tok {t : LTok} (h : PlainTok t) (hm : Match [Kind.tokenName.text] t) : ∃ n, t = typeTok n := by
  have hk : t.kind = .tokenName := by
    rcases (match_kind _).1 hm with hm | hm
    · exact hm
    · exact absurd hm (h.2.1 (text_kind h.1 (by decide) hm)).2
  have := h.1
  unfold LexTok at this
  rw [hk] at this
  obtain ⟨s, hs⟩ := this
  exact ⟨s, by unfold typeTok; rw [← hk, ← hs]⟩

theorem string_tok {t : LTok} (h : PlainTok t) (hk : t.kind = .string) : ∃ n, IsString n t := by
  have := h.1
  unfold LexTok at this
  rw [hk] at this
  obtain ⟨q, s, hq, hs⟩ := this
  exact ⟨s, q, by rw [← hk, ← hs]⟩

theorem each_of {α : Type} {R : α → LTok → Prop} : ∀ (ts : List LTok), (∀ t ∈ ts, ∃ a, R a t) → ∃ as, EachTok R as ts
  | [], _ => ⟨[], .nil⟩
  | t :: ts, h => by
    obtain ⟨a, ha⟩ := h t (by simp)
    obtain ⟨as, has⟩ := each_of ts (fun t ht => h t (by simp [ht]))
    exact ⟨a :: as, .cons ha has⟩

theorem types_each {ts : List LTok} (hp : ∀ t ∈ ts, PlainTok t) (hm : ∀ t ∈ ts, Match [Kind.tokenName.text] t) :
    ∃ ns, EachTok (fun n t => t = typeTok n) ns ts := each_of ts fun t ht => type_tok (hp t ht) (hm t ht)

theorem parseDir_read {fuel : Nat} {t : LTok} {c c' : Ctx} {f f' : Feed} {items : List HeadItem} {D T : List (List Nat × List Nat)}
    {early : List (List Nat)} (hd : Hd items D T early c) (hk : t.kind = .dir) (hp : Plain (rest f))
    (h : parseDir fuel t c f = .done (.ok (c', f'))) :
    ∃ i ts, rest f = ts.map .ok ++ rest f' ∧ DerivesHead i (t :: ts) ∧ (∃ early', Hd (items ++ [i]) D T early' c') ∧
      (∀ okRe, definitions okRe T D [i] = some (T, D)) := by
  have hl := plain_lexed hp
  have toks : ∀ {ts : List LTok} {f1 : Feed}, rest f = ts.map .ok ++ .ok (op 59) :: rest f1 → ∀ t ∈ ts, PlainTok t := by
    intro ts f1 e u hu
    refine plain_tok hp (t := u) ?_
    rw [e]
    exact List.mem_append_left _ (List.mem_map.2 ⟨u, hu, rfl⟩)
  unfold parseDir at h
  by_cases hf : t.text ∈ [sideDir, caselessDir, externDir, errorDir]
  · rw [if_pos hf] at h
    have hw : ∃ d : Dir, t.text = d.word := by
      simp only [List.mem_cons, List.not_mem_nil, or_false] at hf
      rcases hf with hf | hf | hf | hf
      · exact ⟨.side, hf⟩
      · exact ⟨.caseless, hf⟩
      · exact ⟨.extern, hf⟩
      · exact ⟨.error, hf⟩
    obtain ⟨d, hw⟩ := hw
    unfold parseTokenFlagDir at h
    rw [bindL_ok] at h
    obtain ⟨⟨ts, f1⟩, h1, h⟩ := h
    obtain ⟨e, hm⟩ := fetchList_read hl h1
    dsimp only at h
    rw [orPanic_ok] at h
    obtain ⟨c1, h2, h⟩ := h
    cases h
    obtain ⟨ns, hns⟩ := types_each (toks e) hm
    obtain ⟨c2, early', h3, h4⟩ := addFlags_view d ns ts [] early c hns (hd.flags_start d)
    rw [hw, dirFlag_word, h3] at h2
    cases h2
    refine ⟨.flags d ns, ts ++ [op 59], by rw [e]; simp, ?_, ⟨early', by simpa using h4⟩, fun _ => rfl⟩
    have ht : t = ⟨.dir, d.word⟩ := by rw [← hw, ← hk]
    rw [ht]
    exact .flags d hns
  rw [if_neg hf] at h
  by_cases hg : t.text = groupDir
  · rw [if_pos hg] at h
    unfold parseGroupDir at h
    rw [bindL_ok] at h
    obtain ⟨⟨ts, f1⟩, h1, h⟩ := h
    obtain ⟨e, hm⟩ := fetchList_read hl h1
    dsimp only at h
    rw [bindL_ok] at h
    obtain ⟨c1, h2, h⟩ := h
    cases h
    obtain ⟨ns, hns⟩ := types_each (toks e) hm
    obtain ⟨early', h4⟩ := addGroups_view ns ts [] early _ c' hns hd.group_start h2
    refine ⟨.group ns, ts ++ [op 59], by rw [e]; simp, ?_, ⟨early', by simpa using h4⟩, fun _ => rfl⟩
    have ht : t = ⟨.dir, bytesOf "!group"⟩ := by rw [show bytesOf "!group" = t.text from hg.symm, ← hk]
    rw [ht]
    exact .group hns
  rw [if_neg hg] at h
  by_cases hr : t.text = reservedDir
  · rw [if_pos hr] at h
    unfold parseReservedDir at h
    rw [bindL_ok] at h
    obtain ⟨⟨ts, f1⟩, h1, h⟩ := h
    obtain ⟨e, hm⟩ := fetchList_read hl h1
    dsimp only at h
    rw [orPanic_ok] at h
    obtain ⟨c1, h2, h⟩ := h
    cases h
    have hls : ∃ ls, EachTok IsString ls ts := by
      refine each_of ts fun u hu => string_tok (toks e u hu) ?_
      rcases (match_kind _).1 (hm u hu) with hm | hm
      · exact hm
      · exact absurd hm ((toks e u hu).2.1 (text_kind (toks e u hu).1 (by decide) hm)).1
    obtain ⟨ls, hls⟩ := hls
    obtain ⟨c2, h3, h4⟩ := addReserved_view ls ts [] c hls hd.reserved_start
    rw [h3] at h2
    cases h2
    refine ⟨.reserved ls, ts ++ [op 59], by rw [e]; simp, ?_, ⟨early, by simpa using h4⟩, fun _ => rfl⟩
    have ht : t = ⟨.dir, bytesOf "!reserved"⟩ := by rw [show bytesOf "!reserved" = t.text from hr.symm, ← hk]
    rw [ht]
    exact .reserved hls
  rw [if_neg hr] at h
  by_cases hli : t.text = literalDir
  · rw [if_pos hli] at h
    unfold parseLiteralDir at h
    rw [bindL_ok] at h
    obtain ⟨⟨ts, f1⟩, h1, h⟩ := h
    obtain ⟨e, hm⟩ := fetchList_read hl h1
    dsimp only at h
    rw [orPanic_ok] at h
    obtain ⟨c1, h2, h⟩ := h
    cases h
    have hls : ∃ as, EachTok IsLitArg as ts := by
      refine each_of ts fun u hu => ?_
      have hpu := toks e u hu
      have hmu := hm u hu
      simp only [Match, List.mem_cons, List.not_mem_nil, or_false] at hmu
      rcases hmu with (g | g) | (g | g)
      · obtain ⟨n, hn⟩ := string_tok hpu (kind_text_inj g)
        exact ⟨.literal n, hn⟩
      · obtain ⟨n, hn⟩ := type_tok hpu ((match_kind _).2 (.inl (kind_text_inj g)))
        exact ⟨.type n, hn⟩
      · exact absurd g (hpu.2.1 (text_kind hpu.1 (by decide) g)).1
      · exact absurd g (hpu.2.1 (text_kind hpu.1 (by decide) g)).2
    obtain ⟨as, has⟩ := hls
    obtain ⟨c2, early', h3, h4⟩ := addLiterals_view as ts [] early c has hd.literal_start
    rw [h3] at h2
    cases h2
    refine ⟨.literal as, ts ++ [op 59], by rw [e]; simp, ?_, ⟨early', by simpa using h4⟩, fun _ => rfl⟩
    have ht : t = ⟨.dir, bytesOf "!literal"⟩ := by rw [show bytesOf "!literal" = t.text from hli.symm, ← hk]
    rw [ht]
    exact .literal has
  rw [if_neg hli] at h
  cases h

theorem joinRe_read {T T' : List (List Nat × List Nat)} (hT : ∀ n, T'.lookup n = T.lookup n) (hfull : ∀ p ∈ T, p.2 ≠ []) :
    ∀ (ts : List LTok) (re : List Nat), (∀ t ∈ ts, PlainTok t ∧ Match [Kind.regexp.text, Kind.name.text] t) → joinRe T' ts = .done (.ok re) →
    ∃ ps, EachTok IsPart ps ts ∧ resolve T ps = some re ∧ (ts ≠ [] → re ≠ [])
  | [], re, _, h => by
    rw [joinRe] at h
    cases h
    exact ⟨[], .nil, rfl, by simp⟩
  | t :: ts, re, hts, h => by
    obtain ⟨hp, hm⟩ := hts t (by simp)
    rw [joinRe.eq_def] at h
    dsimp only at h
    have hk : t.kind = .regexp ∨ t.kind = .name := by
      simp only [Match, List.mem_cons, List.not_mem_nil, or_false] at hm
      rcases hm with (g | g) | (g | g)
      · exact .inl (kind_text_inj g)
      · exact .inr (kind_text_inj g)
      · exact .inr (text_kind hp.1 (by decide) g)
      · exact .inr (text_kind hp.1 (by decide) g)
    rcases hk with hk | hk
    · rw [hk] at h
      have hlex := hp.1
      unfold LexTok at hlex
      rw [hk] at hlex
      obtain ⟨s, hs⟩ := hlex
      have hlen := hp.2.2 hk
      rw [hs] at hlen
      dsimp only at h
      rw [hs, inner_some] at h
      simp only [orPanic] at h
      rw [bindL_ok] at h
      obtain ⟨y, h1, h⟩ := h
      cases h
      obtain ⟨ps, d, e, -⟩ := joinRe_read hT hfull ts y (fun t ht => hts t (by simp [ht])) h1
      refine ⟨.text s :: ps, .cons ?_ d, by rw [resolve, e]; rfl, ?_⟩
      · show t = _
        rw [← hk, ← hs]
      · intro _ hc
        simp only [List.append_eq_nil_iff] at hc
        rw [hc.1] at hlen
        simp at hlen
    · rw [hk] at h
      dsimp only at h
      cases hx : T'.lookup t.text with
      | none => rw [hx] at h; cases h
      | some x =>
        rw [hx] at h
        dsimp only at h
        rw [bindL_ok] at h
        obtain ⟨y, h1, h⟩ := h
        cases h
        obtain ⟨ps, d, e, -⟩ := joinRe_read hT hfull ts y (fun t ht => hts t (by simp [ht])) h1
        rw [hT] at hx
        refine ⟨.name t.text :: ps, .cons ?_ d, by rw [resolve, hx, e]; rfl, ?_⟩
        · show t = _
          rw [← hk]
        · intro _ hc
          simp only [List.append_eq_nil_iff] at hc
          refine hfull (t.text, x) ?_ hc.1
          clear h1 d e hc hT
          induction T with
          | nil => cases hx
          | cons p T ih =>
            obtain ⟨k, v⟩ := p
            rw [List.lookup_cons] at hx
            split at hx
            · next heq =>
              cases hx
              have : t.text = k := by simpa using heq
              rw [this]
              simp
            · exact List.mem_cons_of_mem _ (ih (fun p hp => hfull p (by simp [hp])) hx)

theorem parseReDef_read {okRe : List Nat → Bool} {fuel : Nat} {c : Ctx} {f f' : Feed} {re : List Nat} {items : List HeadItem} {D T : List (List Nat × List Nat)}
    {early : List (List Nat)} (hd : Hd items D T early c) (hp : Plain (rest f)) (h : parseReDef okRe fuel c f = .done (.ok (re, f'))) :
    ∃ ts ps, rest f = (op 61 :: ts ++ [op 59]).map .ok ++ rest f' ∧ EachTok IsPart ps ts ∧ ps ≠ [] ∧ resolve T ps = some re ∧ okRe re = true ∧ re ≠ [] := by
  have hl := plain_lexed hp
  unfold parseReDef at h
  rw [bindL_ok] at h
  obtain ⟨⟨t, f1⟩, h1, h⟩ := h
  obtain ⟨g1, hl1⟩ := need_op h1 hl (by simp)
  dsimp only at h
  rw [bindL_ok] at h
  obtain ⟨⟨re', f2⟩, h2, h⟩ := h
  dsimp only at h
  rw [bindL_ok] at h
  obtain ⟨⟨u, f3⟩, h3, h⟩ := h
  cases h
  unfold fetchRegexp at h2
  rw [bindL_ok] at h2
  obtain ⟨⟨ts, f4⟩, h4, h2⟩ := h2
  obtain ⟨e, hm⟩ := fetchAll_read fuel f1 f4 ts hl1 h4
  have hl4 : Lexed (rest f4) := lexed_suffix hl1 (by rw [e]; exact List.suffix_append _ _)
  dsimp only at h2
  cases ts with
  | nil =>
    -- nothing of the kind has been found
    exfalso
    dsimp only at h2
    rw [bindL_ok] at h2
    obtain ⟨⟨v, f5⟩, h5, h2⟩ := h2
    obtain ⟨k1, kt, k2, -⟩ := need_get h5 hl4 (kinds_no_eof [.regexp, .name] [] (by decide))
    cases fuel with
    | zero => cases h4
    | succ fuel =>
      rw [fetchAll, bindL_ok] at h4
      obtain ⟨⟨w, f6⟩, h6, h4⟩ := h4
      dsimp only at h4
      rw [List.map_nil, List.nil_append] at e
      rw [← e] at k1
      unfold tryFetch at h6
      obtain ⟨f7, q1, q2⟩ := fetch_match k1 k2 false
      rw [q1] at h6
      simp only [orPanic] at h6
      cases h6
      dsimp only at h4
      rw [bindL_ok] at h4
      obtain ⟨⟨ts', f8⟩, h8, h4⟩ := h4
      simp at h4
  | cons v vs =>
    dsimp only at h2
    rw [bindL_ok] at h2
    obtain ⟨re'', h5, h2⟩ := h2
    split at h2
    · next hok =>
      cases h2
      have htoks : ∀ t ∈ v :: vs, PlainTok t ∧ Match [Kind.regexp.text, Kind.name.text] t := by
        intro t ht
        refine ⟨plain_tok hp (t := t) ?_, hm t ht⟩
        rw [g1, e]
        exact List.mem_cons_of_mem _ (List.mem_append_left _ (List.mem_map.2 ⟨t, ht, rfl⟩))
      obtain ⟨ps, d, hres, hne⟩ := joinRe_read hd.view.tmpl hd.full (v :: vs) re htoks h5
      obtain ⟨k1, -⟩ := need_op h3 hl4 (by simp)
      refine ⟨v :: vs, ps, ?_, d, ?_, hres, hok, hne (by simp)⟩
      · rw [g1, e, k1]; simp
      · rintro rfl
        cases d
    · cases h2

theorem definitions_snoc (okRe : List Nat → Bool) (i : HeadItem) : ∀ (is : List HeadItem) (T D T1 D1 T2 D2 : List (List Nat × List Nat)),
    definitions okRe T D [i] = some (T1, D1) → definitions okRe T1 D1 is = some (T2, D2) → definitions okRe T D (i :: is) = some (T2, D2) := by
  intro is T D T1 D1 T2 D2 h1 h2
  cases i with
  | template n ps =>
    simp only [definitions] at h1 ⊢
    cases hr : resolve T ps with
    | none => rw [hr] at h1; cases h1
    | some re =>
      rw [hr] at h1
      simp only [Option.bind_some] at h1 ⊢
      split at h1
      · next hc => cases h1; rw [if_pos hc]; exact h2
      · cases h1
  | token n ps =>
    simp only [definitions] at h1 ⊢
    cases hr : resolve T ps with
    | none => rw [hr] at h1; cases h1
    | some re =>
      rw [hr] at h1
      simp only [Option.bind_some] at h1 ⊢
      split at h1
      · next hc => cases h1; rw [if_pos hc]; exact h2
      · cases h1
  | flags d ns => simp only [definitions] at h1 ⊢; cases h1; exact h2
  | group ns => simp only [definitions] at h1 ⊢; cases h1; exact h2
  | reserved ls => simp only [definitions] at h1 ⊢; cases h1; exact h2
  | literal as => simp only [definitions] at h1 ⊢; cases h1; exact h2
  | layer l => simp only [definitions] at h1 ⊢; cases h1; exact h2

theorem parseHead_read {okRe : List Nat → Bool} : ∀ (fuel : Nat) (c : Ctx) (f : Feed) (items : List HeadItem) (D T : List (List Nat × List Nat))
    (early : List (List Nat)) (t : LTok) (c' : Ctx) (f' : Feed), Hd items D T early c → Plain (rest f) →
    parseHead okRe fuel c f = .done (.ok (t, c', f')) →
    ∃ is ts, rest f = ts.map .ok ++ .ok t :: rest f' ∧ DerivesHeads is ts ∧ t.kind = .name ∧
      ∃ D' T' early', Hd (items ++ is) D' T' early' c' ∧ definitions okRe T D is = some (T', D')
  | 0, _, _, _, _, _, _, _, _, _, _, _, h => by cases h
  | fuel + 1, c, f, items, D, T, early, t, c', f', hd, hp, h => by
    have hl := plain_lexed hp
    rw [parseHead, bindL_ok] at h
    obtain ⟨⟨u, f1⟩, h1, h⟩ := h
    obtain ⟨g1, hu, g2, hl1⟩ := need_get h1 hl (kinds_no_eof [.name, .dir, .op, .templateName, .tokenName] [] (by decide))
    have hp1 : Plain (rest f1) := by rw [g1] at hp; exact plain_tail hp
    dsimp only at h
    -- an item has been read
    have more : ∀ (i : HeadItem) (ts : List LTok) (c1 : Ctx) (f2 : Feed) (D1 T1 : List (List Nat × List Nat)) (early1 : List (List Nat)),
        rest f1 = ts.map .ok ++ rest f2 → DerivesHead i (u :: ts) → Hd (items ++ [i]) D1 T1 early1 c1 →
        definitions okRe T D [i] = some (T1, D1) → parseHead okRe fuel c1 f2 = .done (.ok (t, c', f')) →
        ∃ is ts, rest f = ts.map .ok ++ .ok t :: rest f' ∧ DerivesHeads is ts ∧ t.kind = .name ∧
          ∃ D' T' early', Hd (items ++ is) D' T' early' c' ∧ definitions okRe T D is = some (T', D') := by
      intro i ts c1 f2 D1 T1 early1 e d hd1 hdef hrun
      have hp2 : Plain (rest f2) := plain_suffix hp1 (by rw [e]; exact List.suffix_append _ _)
      obtain ⟨is, ts', e', d', hk', D', T', early', hd', hdef'⟩ := parseHead_read fuel c1 f2 (items ++ [i]) D1 T1 early1 t c' f' hd1 hp2 hrun
      refine ⟨i :: is, u :: ts ++ ts', ?_, .cons d d', hk', D', T', early', by simpa using hd', definitions_snoc okRe i is _ _ _ _ _ _ hdef hdef'⟩
      rw [g1, e, e']
      simp
    have other : ∀ k : Kind, u.kind = k → k ≠ .name → k ∈ [Kind.name, .dir, .op, .templateName, .tokenName] := by
      intro k hk hne
      simp only [Match, List.mem_cons, List.not_mem_nil, or_false] at g2
      rcases g2 with (g | g | g | g | g) | (g | g | g | g | g)
      · rw [← hk, kind_text_inj g]; decide
      · rw [← hk, kind_text_inj g]; decide
      · rw [← hk, kind_text_inj g]; decide
      · rw [← hk, kind_text_inj g]; decide
      · rw [← hk, kind_text_inj g]; decide
      · exact absurd (hk ▸ text_kind hu (by decide) g) hne
      · exact absurd (hk ▸ text_kind hu (by decide) g) hne
      · exact absurd (hk ▸ text_kind hu (by decide) g) hne
      · exact absurd (hk ▸ text_kind hu (by decide) g) hne
      · exact absurd (hk ▸ text_kind hu (by decide) g) hne
    cases hk : u.kind with
    | name =>
      rw [hk] at h
      cases h
      exact ⟨[], [], by rw [g1]; rfl, .nil, hk, D, T, early, by simpa using hd, rfl⟩
    | dir =>
      rw [hk] at h
      dsimp only at h
      rw [bindL_ok] at h
      obtain ⟨⟨c1, f2⟩, h2, h⟩ := h
      obtain ⟨i, ts, e, d, ⟨early1, hd1⟩, hdef⟩ := parseDir_read hd hk hp1 h2
      exact more i ts c1 f2 D T early1 e d hd1 (hdef okRe) h
    | op =>
      rw [hk] at h
      dsimp only at h
      rw [bindL_ok] at h
      obtain ⟨⟨c1, f2⟩, h2, h⟩ := h
      obtain ⟨l, ts, -, e, d, rfl⟩ := parseLayerDef_read hl1 (plain_allOk hp1) hu h2
      simp only [List.map_cons, List.cons_append, List.cons.injEq, true_and] at e
      exact more (.layer l) ts _ f2 D T early e (.layer d) (hd.layer l) rfl h
    | templateName =>
      rw [hk] at h
      have hu' := hu
      unfold LexTok at hu'
      rw [hk] at hu'
      obtain ⟨s, hs⟩ := hu'
      dsimp only at h
      have hslice : Go.slice u.text 2 u.text.length = some s := by
        rw [hs]
        unfold Go.slice
        rw [if_pos (by simp only [List.length_cons]; omega)]
        rw [show (2 : Int).toNat = 2 from rfl]
        simp only [List.drop_succ_cons, List.drop_zero, List.length_cons, Option.some.injEq]
        refine List.take_of_length_le ?_
        omega
      rw [hslice] at h
      simp only [orPanic] at h
      split at h
      · cases h
      · next hn =>
        rw [hd.view.tmpl, lookup_isSome] at hn
        rw [bindL_ok] at h
        obtain ⟨⟨re, f2⟩, h2, h⟩ := h
        obtain ⟨ts, ps, e, d, hps, hres, hok, hre⟩ := parseReDef_read hd hp1 h2
        refine more (.template s ps) _ _ f2 D (T ++ [(s, re)]) early e ?_ (hd.template ps hn hre) ?_ h
        · have : u = ⟨.templateName, 36 :: 36 :: s⟩ := by rw [← hk, ← hs]
          rw [this]
          exact .template s hps d
        · have hn' : s ∉ T.map Prod.fst := hn
          rw [definitions, hres]
          simp only [Option.bind_some]
          rw [if_pos ⟨hok, hn'⟩, definitions]
    | tokenName =>
      rw [hk] at h
      have hu' := hu
      unfold LexTok at hu'
      rw [hk] at hu'
      obtain ⟨s, hs⟩ := hu'
      dsimp only at h
      rw [hs, tail1_cons, orPanic_ok] at h
      obtain ⟨_, hcs, h⟩ := h
      cases hcs
      rw [orPanic_ok] at h
      obtain ⟨has, hh, h⟩ := h
      split at h
      · cases h
      · next hn =>
        simp only [not_or, Bool.not_eq_true] at hn
        obtain ⟨hn1, hn2⟩ := hn
        have hnew : s ∉ D.map Prod.fst := by
          intro hc
          cases hx : c.tokenIndex.lookup s with
          | none =>
            rw [hd.view.tokenIndex] at hx
            exact findIdx?_none.1 hx hc
          | some i =>
            rw [hx] at hh
            dsimp only at hh
            obtain ⟨re, hi⟩ := hd.view.defIndex hx
            rw [hd.view.tokens, List.getElem?_map, hi] at hh
            simp only [Option.map_some, View.entry, Option.isSome_some, Option.some.injEq] at hh
            rw [hn1] at hh
            cases hh
        rw [bindL_ok] at h
        obtain ⟨⟨re, f2⟩, h2, h⟩ := h
        obtain ⟨ts, ps, e, d, hps, hres, hok, hre⟩ := parseReDef_read hd hp1 h2
        obtain ⟨c1, h3, hd1⟩ := hd.token ps hnew hre
        dsimp only at h
        rw [h3] at h
        simp only [orPanic] at h
        refine more (.token s ps) _ c1 f2 (D ++ [(s, re)]) T early e ?_ hd1 ?_ h
        · have : u = typeTok s := by unfold typeTok; rw [← hk, ← hs]
          rw [this]
          exact .token s hn2 hps d
        · rw [definitions, hres]
          simp only [Option.bind_some]
          rw [if_pos ⟨hok, hnew⟩, definitions]
    | string => have := other _ hk (by decide); simp at this
    | regexp => have := other _ hk (by decide); simp at this
    | eof => exact absurd hk (lexTok_eof hu)

end Verif.Proof.LangDef
