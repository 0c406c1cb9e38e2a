/-
Descriptions that satisfy documented restrictions are accepted: directives and definitions of tokens.
-/
import Verif.Proof.LangAccept

namespace Verif.Proof.LangDef

open Verif.Model Verif.Model.LangDef Verif.Spec.LangDef

theorem fetchAll_run {types : List (List Nat)} : ∀ (ts : List LTok) (fuel : Nat) (f : Feed) (t : LTok) (u : List (Except LErr LTok)),
    rest f = ts.map .ok ++ .ok t :: u → (∀ t ∈ ts, Match types t) → LexTok t → ¬ Match types t → ts.length + 1 ≤ fuel →
    ∃ f', fetchAll fuel types f = .done (.ok (ts, f')) ∧ rest f' = .ok t :: u
  | [], fuel, f, t, u, he, _, hl, hm, hfuel => by
    obtain ⟨fuel, rfl⟩ : ∃ k, fuel = k + 1 := ⟨fuel - 1, by simp at hfuel; omega⟩
    obtain ⟨f1, h1, h2⟩ := try_none he hl hm
    refine ⟨f1, ?_, by rw [h2, he]; rfl⟩
    rw [fetchAll, h1]
    rfl
  | v :: ts, fuel, f, t, u, he, hts, hl, hm, hfuel => by
    obtain ⟨fuel, rfl⟩ : ∃ k, fuel = k + 1 := ⟨fuel - 1, by simp at hfuel; omega⟩
    obtain ⟨f1, h1, h2⟩ := try_run (t := v) (r := ts.map .ok ++ .ok t :: u) (by rw [he]; rfl) (hts v (by simp))
    obtain ⟨f2, h3, h4⟩ := fetchAll_run ts fuel f1 t u h2 (fun t ht => hts t (by simp [ht])) hl hm (by simp at hfuel; omega)
    refine ⟨f2, ?_, h4⟩
    rw [fetchAll, h1]
    simp only [bindL]
    rw [h3]

theorem semicolon_match (ks : List Kind) (h : Kind.op ∉ ks) : ¬ Match (ks.map Kind.text) (op 59) := by
  rintro (hm | hm)
  · obtain ⟨k, hk, he⟩ := List.mem_map.1 hm
    have := kind_text_inj he
    exact h (by rw [← show k = Kind.op from this]; exact hk)
  · obtain ⟨k, hk, he⟩ := List.mem_map.1 hm
    revert he
    cases k <;> decide +kernel

theorem lex_semicolon : LexTok (op 59) := ⟨59, by simp, rfl⟩

theorem fetchList_run (ks : List Kind) (hk : Kind.op ∉ ks) {ts : List LTok} {fuel : Nat} {f : Feed} {u : List (Except LErr LTok)}
    (he : rest f = ts.map .ok ++ .ok (op 59) :: u) (hts : ∀ t ∈ ts, t.kind ∈ ks) (hfuel : ts.length + 1 ≤ fuel) :
    ∃ f', fetchList fuel (ks.map Kind.text) f = .done (.ok (ts, f')) ∧ rest f' = u := by
  obtain ⟨f1, h1, h2⟩ := fetchAll_run (types := ks.map Kind.text) ts fuel f (op 59) u he (fun t ht => .inl (List.mem_map.2 ⟨_, hts t ht, rfl⟩)) lex_semicolon
    (semicolon_match ks hk) hfuel
  obtain ⟨f2, h3, h4⟩ := need_run h2 (types := [opSemicolon]) (match_self 59)
  refine ⟨f2, ?_, h4⟩
  unfold fetchList
  rw [h1]
  simp only [bindL]
  rw [h3]

theorem each_kind {α : Type} {R : α → LTok → Prop} {p : Kind → Prop} (h : ∀ a t, R a t → p t.kind) {as : List α} {ts : List LTok} (hx : EachTok R as ts) :
    ∀ t ∈ ts, p t.kind := by
  induction hx with
  | nil => simp
  | cons h1 _ ih =>
    intro t ht
    rcases List.mem_cons.1 ht with rfl | ht
    · exact h _ _ h1
    · exact ih t ht

/-! Groups -/

theorem lastGroup_zero {n : List Nat} : ∀ (gs : List (List (List Nat))) (k : Nat), n ∉ gs.flatten → lastGroup n k gs = 0
  | [], _, _ => rfl
  | g :: gs, k, h => by
    simp only [List.flatten_cons, List.mem_append, not_or] at h
    rw [lastGroup, lastGroup_zero gs (k + 1) h.2]
    simp [h.1]

theorem addGroups_run {items : List HeadItem} {D T : List (List Nat × List Nat)} : ∀ (ns : List (List Nat)) (ts : List LTok)
    (ns0 : List (List Nat)) (early : List (List Nat)) (c : Ctx), EachTok (fun n t => t = typeTok n) ns ts →
    Hd (items ++ [.group ns0]) D T early c → ((groups items).flatten ++ (ns0 ++ ns)).Nodup → ∃ c', addGroups ts c = .done (.ok c')
  | _, _, ns0, early, c, .nil, h, _ => ⟨c, rfl⟩
  | n :: ns, t :: ts, ns0, early, c, .cons ht hts, h, hnd => by
    subst ht
    rw [addGroups, show (typeTok n).text = 36 :: n from rfl, tail1_cons]
    simp only [orPanic]
    have hnd' : ((groups items).flatten ++ (ns0 ++ [n] ++ ns)).Nodup := by simpa using hnd
    cases hx : c.tokenIndex.lookup n with
    | some i =>
      obtain ⟨re, h1, h2, h3⟩ := setGroup_hinv h.view hx
      have hv := group_view items D T early ns0 n
      rw [h2] at hv
      rw [hv] at h3
      have hz : ¬ (View.entry (viewOf (items ++ [.group ns0]) D T early) (n, re)).group ≠ 0 := by
        have : lastGroup n 0 (groups (items ++ [.group ns0])) = 0 := by
          refine lastGroup_zero _ _ ?_
          rw [groups_append]
          have hmid : ((groups items).flatten ++ ns0 ++ n :: ns).Nodup := by simpa using hnd
          rw [List.nodup_append] at hmid
          have := fun hm => hmid.2.2 n hm n (by simp) rfl
          simpa [groups] using this
        simp only [View.entry, viewOf]
        rw [this]
        simp
      simp only [h1]
      rw [if_neg hz]
      exact addGroups_run ns ts (ns0 ++ [n]) (mentionE D early n) _ hts
        ⟨h3, undef_step h.undef (by simp [HeadItem.mentions]), h.full, sub_step h.sub (by simp [HeadItem.mentions])⟩ hnd'
    | none =>
      have hn : ¬ (viewOf (items ++ [.group ns0]) D T early).has n := by
        rw [h.view.tokenIndex] at hx
        exact findIdx?_none.1 hx
      obtain ⟨es, h1, h2⟩ := addGroup_hinv h.view n hn
      dsimp only
      rw [h1]
      rw [group_view] at h2
      exact addGroups_run ns ts (ns0 ++ [n]) (mentionE D early n) _ hts
        ⟨h2, undef_step h.undef (by simp [HeadItem.mentions]), h.full, sub_step h.sub (by simp [HeadItem.mentions])⟩ hnd'

/-! Regular expressions -/

theorem joinRe_run {T T' : List (List Nat × List Nat)} (hT : ∀ n, T'.lookup n = T.lookup n) {ps : List Part} {ts : List LTok} (h : EachTok IsPart ps ts) :
    ∀ re, resolve T ps = some re → joinRe T' ts = .done (.ok re) := by
  induction h with
  | nil => intro re hr; cases hr; rfl
  | @cons a t as ts ht _ ih =>
    intro re hr
    cases a with
    | text x =>
      have ht' : t = ⟨.regexp, 47 :: x ++ [47]⟩ := ht
      subst ht'
      rw [resolve, Option.map_eq_some_iff] at hr
      obtain ⟨y, h1, rfl⟩ := hr
      rw [joinRe]
      dsimp only
      rw [inner_some]
      simp only [orPanic]
      rw [ih y h1]
      rfl
    | name n =>
      have ht' : t = ⟨.name, n⟩ := ht
      subst ht'
      rw [resolve, Option.bind_eq_some_iff] at hr
      obtain ⟨x, h0, hr⟩ := hr
      rw [Option.map_eq_some_iff] at hr
      obtain ⟨y, h1, rfl⟩ := hr
      rw [joinRe]
      dsimp only
      rw [hT, h0]
      dsimp only
      rw [ih y h1]
      rfl

theorem isPart_kind {p : Part} {t : LTok} (h : IsPart p t) : t.kind ∈ [Kind.regexp, Kind.name] := by
  cases p with
  | text x => have ht : t = ⟨.regexp, 47 :: x ++ [47]⟩ := h; rw [ht]; simp
  | name n => have ht : t = ⟨.name, n⟩ := h; rw [ht]; simp

theorem parseReDef_run {okRe : List Nat → Bool} {items : List HeadItem} {D T : List (List Nat × List Nat)} {early : List (List Nat)} {c : Ctx}
    (hd : Hd items D T early c) {ps : List Part} {ts : List LTok} (h : EachTok IsPart ps ts) (hne : ps ≠ []) {re : List Nat} (hr : resolve T ps = some re)
    (hok : okRe re = true) {fuel : Nat} {f : Feed} {u : List (Except LErr LTok)} (he : rest f = .ok (op 61) :: (ts.map .ok ++ .ok (op 59) :: u))
    (hfuel : ts.length + 1 ≤ fuel) : ∃ f', parseReDef okRe fuel c f = .done (.ok (re, f')) ∧ rest f' = u := by
  obtain ⟨f1, h1, h2⟩ := need_run he (types := [opEqu]) (match_self 61)
  obtain ⟨f2, h3, h4⟩ := fetchAll_run (types := [Kind.regexp.text, Kind.name.text]) ts fuel f1 (op 59) u h2
    (fun t ht => .inl (by
      have := each_kind (p := fun k => k ∈ [Kind.regexp, Kind.name]) (fun a t h => isPart_kind h) h t ht
      simp only [List.mem_cons, List.not_mem_nil, or_false] at this ⊢
      rcases this with h | h <;> simp [h])) lex_semicolon
    (semicolon_match [.regexp, .name] (by decide)) hfuel
  obtain ⟨f3, h5, h6⟩ := need_run h4 (types := [opSemicolon]) (match_self 59)
  refine ⟨f3, ?_, h6⟩
  unfold parseReDef fetchRegexp
  rw [h1]
  simp only [bindL]
  rw [h3]
  cases ts with
  | nil => cases h; exact absurd rfl hne
  | cons v vs =>
    simp only
    rw [joinRe_run hd.view.tmpl h re hr]
    simp only
    rw [if_pos hok]
    simp only
    rw [h5]

theorem resolve_nonempty {items : List HeadItem} {D T : List (List Nat × List Nat)} {early : List (List Nat)} {c : Ctx} (hd : Hd items D T early c)
    {ps : List Part} {ts : List LTok} (h : EachTok IsPart ps ts) (hne : ps ≠ []) {re : List Nat} (hr : resolve T ps = some re) (hp : ∀ t ∈ ts, PlainTok t) :
    re ≠ [] := by
  have hj := joinRe_run (T' := T) (fun _ => rfl) h re hr
  have hm : ∀ t ∈ ts, Match [Kind.regexp.text, Kind.name.text] t := fun t ht => .inl (by
    have := each_kind (p := fun k => k ∈ [Kind.regexp, Kind.name]) (fun a t h => isPart_kind h) h t ht
    simp only [List.mem_cons, List.not_mem_nil, or_false] at this ⊢
    rcases this with h | h <;> simp [h])
  obtain ⟨-, -, -, h3⟩ := joinRe_read (T' := T) (fun _ => rfl) hd.full ts re (fun t ht => ⟨hp t ht, hm t ht⟩) hj
  refine h3 ?_
  rintro rfl
  cases h
  exact hne rfl

/-! Directives -/

theorem dir_run {i : HeadItem} {t : LTok} {ts : List LTok} (h : DerivesHead i (t :: ts)) (hk : t.kind = .dir) {items : List HeadItem}
    {D T : List (List Nat × List Nat)} {early : List (List Nat)} {c : Ctx} (hd : Hd items D T early c) {fuel : Nat} {f : Feed}
    {u : List (Except LErr LTok)} (he : rest f = ts.map .ok ++ u) (hnd : (groups (items ++ [i])).flatten.Nodup) (hfuel : ts.length + 1 ≤ fuel) :
    ∃ c' f' early', parseDir fuel t c f = .done (.ok (c', f')) ∧ rest f' = u ∧ Hd (items ++ [i]) D T early' c' := by
  cases h with
  | @flags d ns ts hx =>
    obtain ⟨f1, h1, h2⟩ := fetchList_run [.tokenName] (by decide) (ts := ts) (u := u) (fuel := fuel) (by rw [he]; simp)
      (each_kind (p := fun k => k ∈ [Kind.tokenName]) (fun a t h => by rw [h]; simp [typeTok]) hx) (by simp at hfuel; omega)
    obtain ⟨c2, early', h3, h4⟩ := addFlags_view d ns ts [] early c hx (hd.flags_start d)
    refine ⟨c2, f1, early', ?_, h2, by simpa using h4⟩
    unfold parseDir
    rw [if_pos (by cases d <;> simp [Dir.word, sideDir, caselessDir, externDir, errorDir])]
    unfold parseTokenFlagDir
    rw [List.map_cons, List.map_nil] at h1
    rw [h1]
    simp only [bindL]
    rw [dirFlag_word, h3]
    rfl
  | @group ns ts hx =>
    obtain ⟨f1, h1, h2⟩ := fetchList_run [.tokenName] (by decide) (ts := ts) (u := u) (fuel := fuel) (by rw [he]; simp)
      (each_kind (p := fun k => k ∈ [Kind.tokenName]) (fun a t h => by rw [h]; simp [typeTok]) hx) (by simp at hfuel; omega)
    obtain ⟨c2, h3⟩ := addGroups_run ns ts [] early _ hx hd.group_start (by rw [groups_append] at hnd; simpa [groups] using hnd)
    obtain ⟨early', h4⟩ := addGroups_view ns ts [] early _ c2 hx hd.group_start h3
    refine ⟨c2, f1, early', ?_, h2, by simpa using h4⟩
    unfold parseDir
    rw [if_neg (by decide +kernel), if_pos (show bytesOf "!group" = groupDir from rfl)]
    unfold parseGroupDir
    rw [List.map_cons, List.map_nil] at h1
    rw [h1]
    simp only [bindL]
    rw [h3]
  | @reserved ls ts hx =>
    obtain ⟨f1, h1, h2⟩ := fetchList_run [.string] (by decide) (ts := ts) (u := u) (fuel := fuel) (by rw [he]; simp)
      (each_kind (p := fun k => k ∈ [Kind.string]) (fun a t h => by rw [isString_kind h]; simp) hx) (by simp at hfuel; omega)
    obtain ⟨c2, h3, h4⟩ := addReserved_view ls ts [] c hx hd.reserved_start
    refine ⟨c2, f1, early, ?_, h2, by simpa using h4⟩
    unfold parseDir
    rw [if_neg (by decide +kernel), if_neg (by decide +kernel), if_pos (show bytesOf "!reserved" = reservedDir from rfl)]
    unfold parseReservedDir
    rw [List.map_cons, List.map_nil] at h1
    rw [h1]
    simp only [bindL]
    rw [h3]
    rfl
  | @literal as ts hx =>
    obtain ⟨f1, h1, h2⟩ := fetchList_run [.string, .tokenName] (by decide) (ts := ts) (u := u) (fuel := fuel) (by rw [he]; simp)
      (each_kind (p := fun k => k ∈ [Kind.string, Kind.tokenName]) (fun a t h => by
        cases a with
        | type n => rw [show t = typeTok n from h]; simp [typeTok]
        | literal n => rw [isString_kind (show IsString n t from h)]; simp) hx) (by simp at hfuel; omega)
    obtain ⟨c2, early', h3, h4⟩ := addLiterals_view as ts [] early c hx hd.literal_start
    refine ⟨c2, f1, early', ?_, h2, by simpa using h4⟩
    unfold parseDir
    rw [if_neg (by decide +kernel), if_neg (by decide +kernel), if_neg (by decide +kernel),
      if_pos (show bytesOf "!literal" = literalDir from rfl)]
    unfold parseLiteralDir
    simp only [List.map_cons, List.map_nil] at h1
    rw [h1]
    simp only [bindL]
    rw [h3]
    rfl
  | layer hx =>
    obtain ⟨us, hus⟩ := layer_head hx
    cases hus
    cases hk
  | template => cases hk
  | token => cases hk

theorem definitions_cons {okRe : List Nat → Bool} {i : HeadItem} {is : List HeadItem} {T D T2 D2 : List (List Nat × List Nat)}
    (h : definitions okRe T D (i :: is) = some (T2, D2)) : ∃ T1 D1, definitions okRe T D [i] = some (T1, D1) ∧ definitions okRe T1 D1 is = some (T2, D2) := by
  cases i with
  | template n ps =>
    simp only [definitions] at h ⊢
    cases hr : resolve T ps with
    | none => rw [hr] at h; cases h
    | some re =>
      rw [hr] at h
      simp only [Option.bind_some] at h ⊢
      split at h
      · next hc => exact ⟨_, _, by rw [if_pos hc], h⟩
      · cases h
  | token n ps =>
    simp only [definitions] at h ⊢
    cases hr : resolve T ps with
    | none => rw [hr] at h; cases h
    | some re =>
      rw [hr] at h
      simp only [Option.bind_some] at h ⊢
      split at h
      · next hc => exact ⟨_, _, by rw [if_pos hc], h⟩
      · cases h
  | flags d ns => exact ⟨_, _, rfl, h⟩
  | group ns => exact ⟨_, _, rfl, h⟩
  | reserved ls => exact ⟨_, _, rfl, h⟩
  | literal as => exact ⟨_, _, rfl, h⟩
  | layer l => exact ⟨_, _, rfl, h⟩

/-- An item is read. -/
theorem head_step {okRe : List Nat → Bool} {i : HeadItem} {ts : List LTok} (h : DerivesHead i ts) {items : List HeadItem}
    {D T D1 T1 : List (List Nat × List Nat)} {early : List (List Nat)} {c : Ctx} (hd : Hd items D T early c) {fuel : Nat} {f : Feed}
    {u : List (Except LErr LTok)} (he : rest f = ts.map .ok ++ u) (hp : Plain (rest f)) (hnd : (groups (items ++ [i])).flatten.Nodup)
    (hdef : definitions okRe T D [i] = some (T1, D1)) (hfuel : ts.length + 1 ≤ fuel) :
    ∃ c1 f1 early1, parseHead okRe (fuel + 1) c f = parseHead okRe fuel c1 f1 ∧ rest f1 = u ∧ Hd (items ++ [i]) D1 T1 early1 c1 := by
  obtain ⟨t, us, rfl, hkn⟩ := head_start h
  have hkind : t.kind ∈ [Kind.dir, .op, .templateName, .tokenName] := by
    generalize hg : t :: us = l at h
    cases h with
    | layer hx => obtain ⟨vs, rfl⟩ := layer_head hx; cases hg; simp [op]
    | _ => cases hg; simp [typeTok]
  have hm : Match [Kind.name.text, Kind.dir.text, Kind.op.text, Kind.templateName.text, Kind.tokenName.text] t := by
    refine .inl ?_
    simp only [List.mem_cons, List.not_mem_nil, or_false] at hkind ⊢
    rcases hkind with h | h | h | h <;> simp [h]
  obtain ⟨f0, h1, h2⟩ := need_run (t := t) (r := us.map .ok ++ u) (by rw [he]; rfl) hm
  have hp0 : Plain (rest f0) := plain_suffix hp (by rw [h2, he]; exact ⟨[.ok t], by simp⟩)
  rw [parseHead, h1]
  simp only [bindL]
  by_cases hk : t.kind = .dir
  · have hsame : T1 = T ∧ D1 = D := by
      generalize hg : t :: us = l at h
      cases h with
      | layer hx => obtain ⟨vs, rfl⟩ := layer_head hx; cases hg; cases hk
      | template => cases hg; cases hk
      | token => cases hg; cases hk
      | _ => simp only [definitions] at hdef; cases hdef; exact ⟨rfl, rfl⟩
    obtain ⟨rfl, rfl⟩ := hsame
    obtain ⟨c1, f1, early1, h3, h4, h5⟩ := dir_run h hk hd h2 hnd (by simp at hfuel; omega : us.length + 1 ≤ fuel)
    refine ⟨c1, f1, early1, ?_, h4, h5⟩
    rw [hk]
    dsimp only
    rw [h3]
  · cases h with
    | flags => exact absurd rfl hk
    | group => exact absurd rfl hk
    | reserved => exact absurd rfl hk
    | literal => exact absurd rfl hk
    | @layer l _ hx =>
      have hop : t.kind = .op := by obtain ⟨vs, hvs⟩ := layer_head hx; cases hvs; rfl
      obtain ⟨f1, h3, h4⟩ := layer_run hx (fuel := fuel) (c := c) h2 (plain_lexed hp0) (by simp at hfuel; omega)
      simp only [definitions] at hdef
      cases hdef
      refine ⟨_, f1, early, ?_, h4, hd.layer l⟩
      rw [hop]
      dsimp only
      rw [h3]
    | @template n ps ts hne hx =>
      simp only [definitions] at hdef
      rw [Option.bind_eq_some_iff] at hdef
      obtain ⟨re, hr, hdef⟩ := hdef
      split at hdef
      next hc =>
        cases hdef
        have hre : re ≠ [] := resolve_nonempty hd hx hne hr (fun v hv => plain_tok hp0 (by rw [h2]; simp [hv]))
        obtain ⟨f1, h3, h4⟩ := parseReDef_run (okRe := okRe) hd hx hne hr hc.1 (fuel := fuel) (u := u) (by rw [h2]; simp) (by simp at hfuel; omega)
        refine ⟨_, f1, early, ?_, h4, hd.template ps hc.2 hre⟩
        have hslice : Go.slice (36 :: 36 :: n) 2 ((36 :: 36 :: n).length : Nat) = some n := by
          unfold Go.slice
          rw [if_pos (by simp only [List.length_cons]; omega)]
          rw [show (2 : Int).toNat = 2 from rfl]
          simp only [List.drop_succ_cons, List.drop_zero, List.length_cons, Option.some.injEq]
          refine List.take_of_length_le ?_
          omega
        dsimp only
        rw [hslice]
        simp only [orPanic]
        have hnone : ¬ (c.templates.lookup n).isSome = true := by
          rw [hd.view.tmpl n]
          intro hs
          exact hc.2 (lookup_isSome.1 hs)
        rw [if_neg hnone, h3]
      next => cases hdef
    | @token n ps ts hn hne hx =>
      simp only [definitions] at hdef
      rw [Option.bind_eq_some_iff] at hdef
      obtain ⟨re, hr, hdef⟩ := hdef
      split at hdef
      next hc =>
        cases hdef
        have hre : re ≠ [] := resolve_nonempty hd hx hne hr (fun v hv => plain_tok hp0 (by rw [h2]; simp [hv]))
        obtain ⟨f1, h3, h4⟩ := parseReDef_run (okRe := okRe) hd hx hne hr hc.1 (fuel := fuel) (u := u) (by rw [h2]; simp) (by simp at hfuel; omega)
        obtain ⟨c', h5, h6⟩ := hd.token ps hc.2 hre
        refine ⟨c', f1, early, ?_, h4, h6⟩
        have hnone : c.tokenIndex.lookup n = none := by
          rw [hd.view.tokenIndex]
          exact findIdx?_none.2 hc.2
        simp only [typeTok]
        rw [tail1_cons]
        simp only [orPanic]
        rw [hnone]
        simp only
        rw [if_neg (by simp [hn]), h3]
        simp only
        rw [h5]
      next => cases hdef

theorem heads_run {okRe : List Nat → Bool} {is : List HeadItem} {ts : List LTok} (h : DerivesHeads is ts) : ∀ (fuel : Nat) (c : Ctx) (f : Feed)
    (items : List HeadItem) (D T D2 T2 : List (List Nat × List Nat)) (early : List (List Nat)) (t : LTok) (u : List (Except LErr LTok)),
    Hd items D T early c → rest f = ts.map .ok ++ .ok t :: u → t.kind = .name → Plain (rest f) → (groups (items ++ is)).flatten.Nodup →
    definitions okRe T D is = some (T2, D2) → ts.length + 2 ≤ fuel →
    ∃ c' f' early', parseHead okRe fuel c f = .done (.ok (t, c', f')) ∧ rest f' = u ∧ Hd (items ++ is) D2 T2 early' c' := by
  induction h with
  | nil =>
    intro fuel c f items D T D2 T2 early t u hd he hk hp hnd hdef hfuel
    obtain ⟨fuel, rfl⟩ : ∃ k, fuel = k + 1 := ⟨fuel - 1, by omega⟩
    obtain ⟨f0, h1, h2⟩ := need_run (t := t) (r := u) (by rw [he]; rfl)
      (types := [Kind.name.text, Kind.dir.text, Kind.op.text, Kind.templateName.text, Kind.tokenName.text]) (.inl (by rw [hk]; simp))
    simp only [definitions, Option.some.injEq, Prod.mk.injEq] at hdef
    obtain ⟨rfl, rfl⟩ := hdef
    refine ⟨c, f0, early, ?_, h2, by simpa using hd⟩
    rw [parseHead, h1]
    simp only [bindL]
    rw [hk]
  | @cons i ts is ts' hi _ ih =>
    intro fuel c f items D T D2 T2 early t u hd he hk hp hnd hdef hfuel
    obtain ⟨fuel, rfl⟩ : ∃ k, fuel = k + 1 := ⟨fuel - 1, by omega⟩
    obtain ⟨T1, D1, hd1, hd2⟩ := definitions_cons hdef
    have hsplit : groups (items ++ i :: is) = groups (items ++ [i]) ++ groups is := by rw [← groups_append]; simp
    have hnd1 : (groups (items ++ [i])).flatten.Nodup := by
      rw [hsplit, List.flatten_append, List.nodup_append] at hnd
      exact hnd.1
    obtain ⟨v, vs, hvs, -⟩ := head_start hi
    have hlen : 1 ≤ ts.length := by rw [hvs]; simp
    obtain ⟨c1, f1, early1, h1, h2, h3⟩ := head_step (okRe := okRe) hi hd (fuel := fuel) (u := ts'.map .ok ++ .ok t :: u) (by rw [he]; simp) hp hnd1 hd1
      (by simp at hfuel; omega)
    have hp1 : Plain (rest f1) := plain_suffix hp (by rw [h2, he]; exact ⟨ts.map .ok, by simp⟩)
    obtain ⟨c2, f2, early2, h4, h5, h6⟩ := ih fuel c1 f1 (items ++ [i]) D1 T1 D2 T2 early1 t u h3 h2 hk hp1 (by simpa using hnd) hd2
      (by simp at hfuel; omega)
    exact ⟨c2, f2, early2, by rw [h1, h4], h5, by simpa using h6⟩

/-! After the directives -/

theorem addExternals_run : ∀ (ets : List ExtraToken) (c : Ctx), (ets.map ExtraToken.name).Nodup →
    (∀ et ∈ ets, ∀ i, c.extraIndex.lookup et.name = some i → c.extraTokens[i]? = some et) →
    (∀ et ∈ ets, (c.extraIndex.lookup et.name).isSome → et.flags.external = true) → ∃ c', addExternals ets c = .done (.ok c')
  | [], c, _, _, _ => ⟨c, rfl⟩
  | et :: ets, c, hn, hi, hx => by
    rw [addExternals]
    simp only [List.map_cons, List.nodup_cons] at hn
    cases hl : c.extraIndex.lookup et.name with
    | none => exact addExternals_run ets c hn.2 (fun e he => hi e (by simp [he])) (fun e he => hx e (by simp [he]))
    | some i =>
      dsimp only
      rw [if_pos (hx et (by simp) (by rw [hl]; rfl))]
      unfold addToken
      rw [hl]
      dsimp only
      rw [hi et (by simp) i hl]
      simp only [Option.map_some, orPanic]
      refine addExternals_run ets _ hn.2 ?_ ?_
      · intro e he j hj
        have : e.name ≠ et.name := fun hc => hn.1 (List.mem_map.2 ⟨e, he, hc⟩)
        dsimp only at hj ⊢
        rw [lookup_filter_ne, if_neg this] at hj
        exact hi e (by simp [he]) j hj
      · intro e he hs
        have : e.name ≠ et.name := fun hc => hn.1 (List.mem_map.2 ⟨e, he, hc⟩)
        dsimp only at hs
        rw [lookup_filter_ne, if_neg this] at hs
        exact hx e (by simp [he]) hs

theorem enlist_nodup : ∀ (ms l : List (List Nat)), l.Nodup → (enlist l ms).Nodup
  | [], _, h => h
  | m :: ms, l, h => by
    rw [enlist]
    split
    · exact enlist_nodup ms l h
    · next hm =>
      refine enlist_nodup ms _ ?_
      rw [List.nodup_append]
      refine ⟨h, by simp, ?_⟩
      intro a ha b hb hab
      simp only [List.mem_singleton] at hb
      subst hb
      subst hab
      exact hm ha

theorem finishHead_run {items : List HeadItem} {D T : List (List Nat × List Nat)} {early : List (List Nat)} {c : Ctx} (hd : Hd items D T early c)
    (hext : ∀ n ∈ items.flatMap HeadItem.mentions, n ∈ D.map Prod.fst ∨ listed items .extern n = true)
    (hnum : D.length + (enlist [] (items.flatMap HeadItem.mentions)).length < maxTokenType) : ∃ c', finishHead c = .done (.ok c') := by
  have hv := hd.view
  have hget : ∀ et ∈ c.extraTokens, ∀ i, c.extraIndex.lookup et.name = some i → c.extraTokens[i]? = some et := by
    intro et het i hi
    by_cases hin : (viewOf items D T early).has et.name
    · rw [hv.extraIn et.name hin] at hi; cases hi
    · rw [hv.extraOut et.name hin] at hi
      have h2 := findIdx?_mem hi
      obtain ⟨j, hj⟩ := List.getElem?_of_mem het
      have h3 : (viewOf items D T early).early[j]? = some et.name := by rw [← hv.early, List.getElem?_map, hj]; rfl
      rw [nodup_getElem?_inj hv.nodupE h2 h3]
      exact hj
  have hnodup : (c.extraTokens.map ExtraToken.name).Nodup := by rw [hv.early]; exact hv.nodupE
  have hflag : ∀ et ∈ c.extraTokens, (c.extraIndex.lookup et.name).isSome → et.flags.external = true := by
    intro et het hs
    by_cases hin : (viewOf items D T early).has et.name
    · rw [hv.extraIn et.name hin] at hs; cases hs
    · have hmem : et.name ∈ early := by
        have : et.name ∈ (viewOf items D T early).early := by rw [← hv.early]; exact List.mem_map.2 ⟨et, het, rfl⟩
        exact this
      rcases hext et.name (hd.sub et.name hmem) with h | h
      · exact absurd h hin
      · rw [hv.extra et het hin]
        exact h
  obtain ⟨c1, h1⟩ := addExternals_run c.extraTokens c hnodup hget hflag
  unfold finishHead
  have hlen : c.tokens.length + c.extraTokens.length < maxTokenType := by
    have h2 : c.tokens.length = D.length := by rw [hv.tokens]; simp [viewOf]
    have h3 : c.extraTokens.length = early.length := by
      have := congrArg List.length hv.early
      simpa [viewOf] using this
    have h4 : early.length ≤ (enlist [] (items.flatMap HeadItem.mentions)).length := by
      refine (List.subperm_of_subset hv.nodupE ?_).length_le
      intro n hn
      exact (mem_enlist _ _ _).2 (.inr (hd.sub n hn))
    omega
  rw [if_neg (by omega), h1]
  exact ⟨_, rfl⟩

theorem headTable_usable {okRe : List Nat → Bool} {head : List HeadItem} {body : List BodyItem} {D : List (List Nat × List Nat)}
    {m : List Nat} (hm : m ∈ D.map Prod.fst ∨ listed head .extern m = true)
    (h1 : listed head .side m = false) (h2 : listed head .error m = false) : Usable (headTable head D) m := by
  have hin : ∃ t ∈ headTable head D, t.name = m ∧ t.flags.literal = false := by
    by_cases hD : m ∈ D.map Prod.fst
    · obtain ⟨d, hd, rfl⟩ := List.mem_map.1 hD
      exact ⟨typeEntry head d.1 (some d.2), List.mem_append_left _ (List.mem_append_left _ (List.mem_map.2 ⟨d, hd, rfl⟩)), rfl, rfl⟩
    · have hl : listed head .extern m = true := hm.resolve_left hD
      refine ⟨typeEntry head m none, List.mem_append_left _ (List.mem_append_right _ (List.mem_map.2 ⟨m, ?_, rfl⟩)), rfl, rfl⟩
      unfold undefinedTypes
      rw [List.mem_filter]
      refine ⟨(mem_enlist _ _ _).2 (.inr ?_), by simpa using hD⟩
      unfold listed at hl
      rw [List.any_eq_true] at hl
      obtain ⟨i, hi, hl⟩ := hl
      refine List.mem_flatMap.2 ⟨i, hi, ?_⟩
      cases i with
      | flags d ns =>
        simp only [Bool.and_eq_true, List.contains_eq_mem, decide_eq_true_eq] at hl
        exact hl.2
      | _ => cases hl
  obtain ⟨t, ht, hn, hlit⟩ := hin
  cases hx : (headTable head D).findIdx? fun t => t.name = m ∧ t.flags.literal = false with
  | none =>
    rw [List.findIdx?_eq_none_iff] at hx
    have := hx t ht
    simp [hn, hlit] at this
  | some i =>
    have hx' := hx
    rw [List.findIdx?_eq_some_iff_getElem] at hx'
    obtain ⟨hi, h5, -⟩ := hx'
    simp only [decide_eq_true_eq] at h5
    obtain ⟨-, hs, hr⟩ := headTable_type (List.getElem_mem hi) h5.2
    rw [h5.1] at hs hr
    exact ⟨i, _, hx, List.getElem?_eq_getElem hi, by rw [hs, h1], by rw [hr, h2]⟩

theorem enlistDecl_mem : ∀ (ms l : List (List Nat × Bool)) (n : List Nat), n ∈ l.map Prod.fst ∨ n ∈ ms.map Prod.fst → n ∈ (enlistDecl l ms).map Prod.fst
  | [], l, n, h => by
    rcases h with h | h
    · exact h
    · cases h
  | m :: ms, l, n, h => by
    rw [enlistDecl]
    refine enlistDecl_mem ms _ n ?_
    rcases h with h | h
    · refine .inl ?_
      split
      · exact h
      · rw [List.map_append]; exact List.mem_append_left _ h
    · rw [List.map_cons, List.mem_cons] at h
      rcases h with rfl | h
      · refine .inl ?_
        split
        · assumption
        · rw [List.map_append]; exact List.mem_append_right _ (by simp)
      · exact .inr h

theorem defined_sub {body : List BodyItem} {n : List Nat} {es : List Expr} (h : BodyItem.node n es ∈ body) {m : List Nat} (hm : m ∈ Expr.litsOf es) :
    m ∈ body.flatMap BodyItem.lits := List.mem_flatMap.2 ⟨_, h, hm⟩

/-- A correct description is accepted. -/
theorem read_run {okRe : List Nat → Bool} {inp : List (Except LErr LTok)} {head : List HeadItem} {body : List BodyItem}
    {D : List (List Nat × List Nat)} (hp : Plain inp) (hi : IsDescription head body inp) (hc : Correct okRe head body D)
    (hg : (groups head).flatten.Nodup) (hnum : D.length + (enlist [] (head.flatMap HeadItem.mentions)).length < maxTokenType)
    {fuel : Nat} (hfuel : 3 * inp.length + 2 ≤ fuel) : ∃ c, Verif.Model.LangDef.read okRe fuel inp = .done (.ok c) := by
  obtain ⟨ts1, ts2, n, es, r, rfl, d1, d2, hb⟩ := hi
  obtain ⟨T, hdef⟩ : ∃ T, definitions okRe [] [] head = some (T, D) := by
    have := hc.defs
    unfold typeDefs at this
    rw [Option.map_eq_some_iff] at this
    obtain ⟨⟨T, D'⟩, h1, rfl⟩ := this
    exact ⟨T, h1⟩
  obtain ⟨us, rfl⟩ : ∃ us, ts2 = ⟨.name, n⟩ :: us := by
    rw [hb] at d2
    cases d2 with
    | cons hx _ => cases hx with | node => exact ⟨_, rfl⟩
  have he : rest { inp := (ts1 ++ ⟨.name, n⟩ :: us).map .ok } = ts1.map .ok ++ .ok ⟨.name, n⟩ :: us.map .ok := by
    show List.map _ _ = _
    simp
  obtain ⟨c1, f1, early, h1, h2, h3⟩ := heads_run (okRe := okRe) d1 fuel {} { inp := (ts1 ++ ⟨.name, n⟩ :: us).map .ok } [] [] [] D T [] ⟨.name, n⟩ (us.map .ok)
    hd_init he rfl hp (by simpa using hg) hdef (by simp at hfuel; omega)
  rw [List.nil_append] at h3
  obtain ⟨c0, h4⟩ := finishHead_run h3 hc.extern hnum
  obtain ⟨r1, r2, r3, r4, r5, -, -⟩ := finishHead_read h3 h4
  have hb0 : BodyOk c0 [] c0 := {
    same := rfl
    names := by unfold nodeNames; rw [r2]; rfl
    tokens := rfl
    layers := by simp
    inv := r5
    undef := by
      intro i n hi
      unfold nodeNames at hi
      rw [r2] at hi
      simp at hi
    defined := by simp
    nodup := by simp
    types := by simp
    lits := fun _ => rfl }
  have hfit : ∀ n es, BodyItem.node n es ∈ body → Fit c0 es := by
    intro n es hn
    refine ⟨?_, ?_⟩
    · intro m hm
      obtain ⟨q1, q2, q3⟩ := hc.types n es hn m hm
      rw [r1]
      exact headTable_usable (okRe := okRe) (body := body) q1 q2 q3
    · intro hr m hm
      rw [r4] at hr
      have hl := enlistDecl_mem _ [] m (.inr (hc.lits hr m (defined_sub hn hm)))
      obtain ⟨l, hl1, rfl⟩ := List.mem_map.1 hl
      rw [r1]
      exact ⟨literalEntry l, List.mem_append_right _ (List.mem_map.2 ⟨l, hl1, rfl⟩), rfl, rfl⟩
  have hl2 : Lexed (List.map .ok (⟨.name, n⟩ :: us)) := lexed_suffix (plain_lexed hp) ⟨ts1.map .ok, by simp⟩
  obtain ⟨c, h5⟩ := body_run d2 fuel ⟨.name, n⟩ us c0 c0 f1 [] rfl h2 hb0 (by simpa using hc.distinct) hfit hl2 (by simp at hfuel ⊢; omega)
  refine ⟨c, ?_⟩
  unfold Verif.Model.LangDef.read
  rw [h1]
  simp only [bindL]
  rw [h4]
  simp only
  rw [h5]

end Verif.Proof.LangDef
