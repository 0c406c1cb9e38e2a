/-
Reading of whole grammar descriptions.
-/
import Verif.Proof.LangHead

namespace Verif.Proof.LangDef

open Verif.Model Verif.Model.LangDef Verif.Spec.LangDef

/-- `tokenIndex` while there are no literals; listed types that are not in the table. -/
structure TIdx (c : Ctx) : Prop where
  index : ∀ n, c.tokenIndex.lookup n = c.tokens.findIdx? fun t => t.name = n
  apart : ∀ t ∈ c.tokens, c.extraIndex.lookup t.name = none

theorem findIdx?_name_none {ts : List GToken} {n : List Nat} : ts.findIdx? (fun t => t.name = n) = none ↔ ∀ t ∈ ts, t.name ≠ n := by
  rw [List.findIdx?_eq_none_iff]
  simp

theorem orFlags_self (a : TokenFlags) : orFlags a a = a := by simp [orFlags]

/-- A type that is only listed. -/
def externEntry (et : ExtraToken) : GToken := { name := et.name, re := none, group := et.group, flags := et.flags }

theorem addExternals_read : ∀ (ets : List ExtraToken) (c c' : Ctx), (ets.map ExtraToken.name).Nodup →
    (∀ et ∈ ets, ∀ i, c.extraIndex.lookup et.name = some i → c.extraTokens[i]? = some et) → TIdx c → addExternals ets c = .done (.ok c') →
    c'.tokens = c.tokens ++ (ets.filter fun et => (c.extraIndex.lookup et.name).isSome).map externEntry ∧
      (∀ et ∈ ets, (c.extraIndex.lookup et.name).isSome → et.flags.external = true) ∧
      (∃ a b, c' = { c with tokens := c'.tokens, tokenIndex := a, extraIndex := b }) ∧ TIdx c'
  | [], c, c', _, _, hx, h => by
    rw [addExternals] at h
    cases h
    exact ⟨by simp, by simp, ⟨_, _, rfl⟩, hx⟩
  | et :: ets, c, c', hn, hi, hx, h => by
    rw [addExternals] at h
    simp only [List.map_cons, List.nodup_cons] at hn
    cases hl : c.extraIndex.lookup et.name with
    | none =>
      rw [hl] at h
      dsimp only at h
      obtain ⟨h1, h2, h3, h4⟩ := addExternals_read ets c c' hn.2 (fun e he => hi e (by simp [he])) hx h
      refine ⟨?_, ?_, h3, h4⟩
      · rw [h1, List.filter_cons_of_neg (by rw [hl]; simp)]
      · intro e he
        rcases List.mem_cons.1 he with rfl | he
        · rw [hl]; simp
        · exact h2 e he
    | some i =>
      rw [hl] at h
      dsimp only at h
      split at h
      · next hext =>
        unfold addToken at h
        rw [hl] at h
        dsimp only at h
        rw [hi et (by simp) i hl] at h
        simp only [Option.map_some, orPanic, if_true] at h
        rw [orFlags_self] at h
        have key := addExternals_read ets _ c' hn.2 ?a ?b h
        case a =>
          intro e he j hj
          have : e.name ≠ et.name := fun hc => hn.1 (List.mem_map.2 ⟨e, he, hc⟩)
          dsimp only at hj ⊢
          rw [lookup_filter_ne, if_neg this] at hj
          exact hi e (by simp [he]) j hj
        case b =>
          refine ⟨?_, ?_⟩
          · intro n
            dsimp only
            rw [List.lookup_cons, List.findIdx?_append]
            by_cases hne : n = et.name
            · subst hne
              have : (c.tokens.findIdx? fun t => t.name = et.name) = none := by
                rw [findIdx?_name_none]
                intro t ht hc
                have := hx.apart t ht
                rw [hc, hl] at this
                cases this
              rw [this]
              simp
            · have hb : (n == et.name) = false := by simpa using hne
              have hne' : ¬ et.name = n := fun e => hne e.symm
              rw [hb]
              dsimp only
              rw [hx.index]
              cases c.tokens.findIdx? fun t => t.name = n with
              | some k => rfl
              | none => simp [hne']
          · intro t ht
            dsimp only
            rw [lookup_filter_ne]
            rcases List.mem_append.1 ht with ht | ht
            · rw [hx.apart t ht]; simp
            · simp only [List.mem_singleton] at ht
              rw [ht, if_pos rfl]
        obtain ⟨h1, h2, ⟨a, b, h3⟩, h4⟩ := key
        refine ⟨?_, ?_, ⟨a, b, ?_⟩, h4⟩
        · rw [h1, List.filter_cons_of_pos (by rw [hl]; rfl), List.map_cons]
          dsimp only
          rw [List.append_assoc, List.singleton_append]
          congr 2
          congr 1
          refine List.filter_congr ?_
          intro e he
          have : e.name ≠ et.name := fun hc => hn.1 (List.mem_map.2 ⟨e, he, hc⟩)
          rw [lookup_filter_ne, if_neg this]
        · intro e he hs
          rcases List.mem_cons.1 he with rfl | he
          · exact hext
          · have : e.name ≠ et.name := fun hc => hn.1 (List.mem_map.2 ⟨e, he, hc⟩)
            refine h2 e he ?_
            dsimp only
            rw [lookup_filter_ne, if_neg this]
            exact hs
        · exact h3
      · cases h

theorem restrictTypes_map {ts : List GToken} (h : ∀ t ∈ ts, t.flags.literal = false) :
    restrictTypes ts = ts.map fun t => { t with flags := { t.flags with noLiterals := !t.flags.noLiterals } } := by
  induction ts with
  | nil => rfl
  | cons t ts ih =>
    rw [restrictTypes, if_neg (by rw [h t (by simp)]; decide), ih (fun t ht => h t (by simp [ht]))]
    rfl

theorem useLiterals_read : ∀ (ls : List (List Nat × Bool)) (c : Ctx), BInv c → (ls.map Prod.fst).Nodup →
    (∀ l ∈ ls, ∀ t ∈ c.tokens, t.flags.literal = true → t.name ≠ l.1) →
    ∃ a, BInv ((ls.map fun l => (l.1, ({ reserved := l.2 } : TokenFlags))).foldl (fun c lt => (useLiteralToken c lt.1 lt.2).2) c) ∧
      (ls.map fun l => (l.1, ({ reserved := l.2 } : TokenFlags))).foldl (fun c lt => (useLiteralToken c lt.1 lt.2).2) c =
        { c with tokens := c.tokens ++ ls.map literalEntry, literalIndex := a }
  | [], c, hb, _, _ => ⟨c.literalIndex, hb, by simp⟩
  | l :: ls, c, hb, hn, hno => by
    simp only [List.map_cons, List.nodup_cons] at hn
    have hlook : c.literalIndex.lookup l.1 = none := by
      cases hx : c.literalIndex.lookup l.1 with
      | none => rfl
      | some i =>
        obtain ⟨t, ht, h1, h2⟩ := (literal_mem hb l.1).2 ⟨i, hx⟩
        exact absurd h2 (hno l (by simp) t ht h1)
    have hu : (useLiteralToken c l.1 { reserved := l.2 }).2 =
        { c with tokens := c.tokens ++ [literalEntry l], literalIndex := (l.1, c.tokens.length) :: c.literalIndex } := by
      unfold useLiteralToken
      rw [hlook]
      simp [orFlags, literalEntry]
    have hb' := useLiteral_binv hb l.1 { reserved := l.2 }
    rw [hu] at hb'
    obtain ⟨a, h1, h2⟩ := useLiterals_read ls _ hb' hn.2 (by
      intro l' hl' t ht hlit
      rcases List.mem_append.1 ht with ht | ht
      · exact hno l' (by simp [hl']) t ht hlit
      · simp only [List.mem_singleton] at ht
        rw [ht]
        intro hc
        exact hn.1 (List.mem_map.2 ⟨l', hl', hc.symm⟩))
    refine ⟨a, ?_, ?_⟩
    · rw [List.map_cons, List.foldl_cons]
      dsimp only
      rw [hu]
      exact h1
    · rw [List.map_cons, List.foldl_cons]
      dsimp only
      rw [hu, h2]
      simp

theorem allowed_restricted {items : List HeadItem} {n : List Nat} (h : allowed items n = true) : typesRestricted items = true := by
  unfold allowed at h
  unfold typesRestricted
  rw [List.any_eq_true] at h ⊢
  obtain ⟨i, hi, h⟩ := h
  refine ⟨i, hi, ?_⟩
  cases i with
  | literal as =>
    dsimp only at h ⊢
    rw [List.any_eq_true]
    exact ⟨.type n, by simpa using h, rfl⟩
  | _ => cases h

theorem finishHead_read {items : List HeadItem} {D T : List (List Nat × List Nat)} {early : List (List Nat)} {c c' : Ctx} (hd : Hd items D T early c)
    (h : finishHead c = .done (.ok c')) :
    c'.tokens = headTable items D ∧ c'.nodes = [] ∧ c'.layers = items.flatMap HeadItem.layers ∧ c'.restrictLiterals = litsRestricted items ∧
      BInv c' ∧ (∀ n ∈ undefinedTypes items D, listed items .extern n = true) ∧ D.length + (undefinedTypes items D).length < maxTokenType := by
  have hv := hd.view
  unfold finishHead at h
  split at h
  · cases h
  next hlim =>
  rw [bindL_ok] at h
  obtain ⟨c1, h1, h⟩ := h
  dsimp only at h
  simp only [Run.done.injEq, Except.ok.injEq] at h
  -- indexes of listed types
  have hlook : ∀ et ∈ c.extraTokens, (c.extraIndex.lookup et.name).isSome = (!(D.map Prod.fst).contains et.name) := by
    intro et het
    by_cases hin : et.name ∈ D.map Prod.fst
    · rw [hv.extraIn et.name hin]
      simp only [Option.isSome_none, List.contains_eq_mem, hin, decide_true, Bool.not_true]
    · rw [hv.extraOut et.name hin]
      have hmem : et.name ∈ (viewOf items D T early).early := by rw [← hv.early]; exact List.mem_map.2 ⟨et, het, rfl⟩
      have : ((viewOf items D T early).early.findIdx? (· = et.name)).isSome := by
        cases hx : (viewOf items D T early).early.findIdx? (· = et.name) with
        | some i => rfl
        | none => exact absurd hmem (findIdx?_none.1 hx)
      rw [this]
      simp only [List.contains_eq_mem, hin, decide_false, Bool.not_false]
  have hget : ∀ et ∈ c.extraTokens, ∀ i, c.extraIndex.lookup et.name = some i → c.extraTokens[i]? = some et := by
    intro et het i hi
    by_cases hin : (viewOf items D T early).has et.name
    · rw [hv.extraIn et.name hin] at hi; cases hi
    · rw [hv.extraOut et.name hin] at hi
      have h2 := findIdx?_mem hi
      obtain ⟨j, hj⟩ := List.getElem?_of_mem het
      have h3 : (viewOf items D T early).early[j]? = some et.name := by rw [← hv.early, List.getElem?_map, hj]; rfl
      rw [nodup_getElem?_inj hv.nodupE h2 h3]
      exact hj
  have htidx : TIdx c := by
    refine ⟨?_, ?_⟩
    · intro n
      rw [hv.tokenIndex, hv.tokens, List.findIdx?_map, List.findIdx?_map]
      rfl
    · intro t ht
      rw [hv.tokens] at ht
      obtain ⟨d, hdm, rfl⟩ := List.mem_map.1 ht
      exact hv.extraIn _ (List.mem_map.2 ⟨d, hdm, rfl⟩)
  have hnodup : (c.extraTokens.map ExtraToken.name).Nodup := by rw [hv.early]; exact hv.nodupE
  obtain ⟨t1, t2, ⟨a, b, t3⟩, t4⟩ := addExternals_read c.extraTokens c c1 hnodup hget htidx h1
  -- the types that are only listed
  have hext : (c.extraTokens.filter fun et => (c.extraIndex.lookup et.name).isSome).map externEntry =
      (undefinedTypes items D).map fun n => ({ name := n, re := none, group := lastGroup n 0 (groups items), flags := rawFlags items n } : GToken) := by
    rw [← hd.undef]
    have he : early = c.extraTokens.map ExtraToken.name := hv.early.symm
    rw [he, List.filter_map, List.map_map]
    rw [List.filter_congr (fun et het => hlook et het)]
    refine List.map_congr_left ?_
    intro et het
    rw [List.mem_filter] at het
    have hnin : ¬ (viewOf items D T early).has et.name := by
      intro hc
      have hc' : et.name ∈ D.map Prod.fst := hc
      have := het.2
      simp only [List.contains_eq_mem, hc', decide_true, Bool.not_true] at this
      cases this
    have := hv.extra et het.1 hnin
    show externEntry et = _
    rw [this]
    rfl
  rw [hext] at t1
  have hlen : D.length + (undefinedTypes items D).length ≤ c.tokens.length + c.extraTokens.length := by
    have e1 : c.tokens.length = D.length := by rw [hv.tokens]; simp [viewOf]
    have e2 : (undefinedTypes items D).length ≤ c.extraTokens.length := by
      rw [← hd.undef]
      refine Nat.le_trans (List.length_filter_le _ _) ?_
      have he : early = c.extraTokens.map ExtraToken.name := hv.early.symm
      rw [he, List.length_map]
    omega
  -- types with final flags
  have hnl : ∀ t ∈ c1.tokens, t.flags.literal = false := by
    intro t ht
    rw [t1, hv.tokens] at ht
    rcases List.mem_append.1 ht with ht | ht
    · obtain ⟨d, -, rfl⟩ := List.mem_map.1 ht
      rfl
    · obtain ⟨d, -, rfl⟩ := List.mem_map.1 ht
      rfl
  have htypes : (if c1.restrictLiteralTypes = true then { c1 with tokens := restrictTypes c1.tokens } else c1).tokens =
      D.map (fun d => typeEntry items d.1 (some d.2)) ++ (undefinedTypes items D).map (fun n => typeEntry items n none) := by
    have hrt : c1.restrictLiteralTypes = typesRestricted items := by rw [t3]; exact hv.rt
    cases hres : typesRestricted items with
    | true =>
      rw [hrt, hres, if_pos rfl]
      dsimp only
      rw [restrictTypes_map hnl, t1, hv.tokens]
      simp [viewOf, View.entry, typeEntry, rawFlags, hres, Function.comp_def]
    | false =>
      rw [hrt, hres, if_neg (by decide), t1, hv.tokens]
      have hal : ∀ n, allowed items n = false := by
        intro n
        cases hc : allowed items n with
        | false => rfl
        | true => rw [allowed_restricted hc] at hres; cases hres
      simp [viewOf, View.entry, typeEntry, rawFlags, hres, hal]
  have hc2 : ∃ ts, (if c1.restrictLiteralTypes = true then { c1 with tokens := restrictTypes c1.tokens } else c1) = { c1 with tokens := ts } := by
    split
    · exact ⟨_, rfl⟩
    · exact ⟨_, rfl⟩
  obtain ⟨ts, hc2⟩ := hc2
  rw [hc2] at h htypes
  dsimp only at htypes
  subst htypes
  have hnl2 : ∀ t ∈ D.map (fun d => typeEntry items d.1 (some d.2)) ++ (undefinedTypes items D).map (fun n => typeEntry items n none), t.flags.literal = false := by
    intro t ht
    rcases List.mem_append.1 ht with ht | ht
    · obtain ⟨d, -, rfl⟩ := List.mem_map.1 ht
      rfl
    · obtain ⟨d, -, rfl⟩ := List.mem_map.1 ht
      rfl
  -- the index does not depend on flags
  have hnames : (D.map (fun d => typeEntry items d.1 (some d.2)) ++ (undefinedTypes items D).map (fun n => typeEntry items n none)).map GToken.name =
      c1.tokens.map GToken.name := by
    rw [t1, hv.tokens]
    simp [viewOf, View.entry, typeEntry, Function.comp_def]
  have hbinv : BInv { c1 with tokens := D.map (fun d => typeEntry items d.1 (some d.2)) ++ (undefinedTypes items D).map (fun n => typeEntry items n none), literalIndex := [] } := by
    refine ⟨?_, ?_⟩
    · intro n
      dsimp only [ctxNames, namesOf]
      rw [t4.index]
      have e1 : ∀ l : List GToken, l.findIdx? (fun t => decide (t.name = n)) = (l.map GToken.name).findIdx? (fun m => decide (m = n)) := by
        intro l; rw [List.findIdx?_map]; rfl
      rw [e1, ← hnames, ← e1]
      generalize D.map (fun d => typeEntry items d.1 (some d.2)) ++ (undefinedTypes items D).map (fun n => typeEntry items n none) = l at hnl2 ⊢
      induction l with
      | nil => rfl
      | cons t l ih =>
        rw [List.findIdx?_cons, List.findIdx?_cons, ih (fun t ht => hnl2 t (by simp [ht]))]
        simp [hnl2 t (by simp)]
    · intro n
      dsimp only [ctxNames, namesOf]
      symm
      rw [List.lookup_nil, List.findIdx?_eq_none_iff]
      intro t ht
      rw [hnl2 t ht]
      simp
  have hlits : c1.literals = (enlistDecl [] (items.flatMap HeadItem.lits)).map fun l => (l.1, { reserved := l.2 }) := by
    rw [t3]; exact hv.lits
  obtain ⟨li, u1, u2⟩ := useLiterals_read (enlistDecl [] (items.flatMap HeadItem.lits)) _ hbinv hv.nodupL (by
    intro l _ t ht hlit
    rw [hnl2 t ht] at hlit
    cases hlit)
  rw [← hlits] at u1 u2
  dsimp only at h u2 u1
  rw [h] at u1 u2
  refine ⟨?_, ?_, ?_, ?_, u1, ?_, by omega⟩
  · rw [u2]; rfl
  · rw [u2, t3]; exact hv.nodes
  · rw [u2, t3]; exact hv.layers
  · rw [u2, t3]; exact hv.rl
  · intro n hn
    rw [← hd.undef, List.mem_filter] at hn
    have hmem : n ∈ c.extraTokens.map ExtraToken.name := by rw [hv.early]; exact hn.1
    obtain ⟨et, het, rfl⟩ := List.mem_map.1 hmem
    have hnin : ¬ (viewOf items D T early).has et.name := by
      intro hc
      have hc' : et.name ∈ D.map Prod.fst := hc
      have := hn.2
      simp only [List.contains_eq_mem, hc', decide_true, Bool.not_true] at this
      cases this
    have := t2 et het (by rw [hlook et het]; exact hn.2)
    rw [hv.extra et het hnin] at this
    exact this

theorem hd_init : Hd [] [] [] [] {} where
  view := {
    tokens := rfl
    tokenIndex := fun _ => rfl
    early := rfl
    nodupE := List.nodup_nil
    extraIn := fun _ _ => rfl
    extraOut := fun _ _ => rfl
    extra := by simp
    fresh := fun _ _ _ => ⟨rfl, rfl⟩
    lits := rfl
    litIndex := fun _ => rfl
    tmpl := fun _ => rfl
    nodup := List.nodup_nil
    nodupL := List.nodup_nil
    ngroups := rfl
    rt := rfl
    rl := rfl
    layers := rfl
    nodes := rfl
    noLit := fun _ => rfl }
  undef := rfl
  full := by simp
  sub := by simp

/-- Everything known about an accepted description. -/
theorem read_sound {okRe : List Nat → Bool} {fuel : Nat} {inp : List (Except LErr LTok)} {c : Ctx} (hp : Plain inp)
    (h : Verif.Model.LangDef.read okRe fuel inp = .done (.ok c)) :
    ∃ head body ts1 ts2 T D c0, inp = (ts1 ++ ts2).map .ok ∧ DerivesHeads head ts1 ∧ DerivesBody body ts2 ∧
      (∃ t us, ts2 = t :: us ∧ t.kind = .name) ∧
      definitions okRe [] [] head = some (T, D) ∧ (∀ n ∈ undefinedTypes head D, listed head .extern n = true) ∧
      D.length + (undefinedTypes head D).length < maxTokenType ∧
      c0.tokens = headTable head D ∧ c0.layers = head.flatMap HeadItem.layers ∧ c0.restrictLiterals = litsRestricted head ∧ BodyOk c0 body c := by
  unfold Verif.Model.LangDef.read at h
  rw [bindL_ok] at h
  obtain ⟨⟨t, c1, f1⟩, h1, h⟩ := h
  obtain ⟨head, ts1, e1, d1, hk, D, T, early, hd, hdef⟩ := parseHead_read fuel {} { inp := inp } [] [] [] [] t c1 f1 hd_init hp h1
  rw [List.nil_append] at hd
  dsimp only at h
  rw [bindL_ok] at h
  obtain ⟨c0, h2, h⟩ := h
  obtain ⟨r1, r2, r3, r4, r5, r6, r7⟩ := finishHead_read hd h2
  have hs : (.ok t :: rest f1) <:+ inp := by
    have : inp = ts1.map .ok ++ .ok t :: rest f1 := e1
    rw [this]; exact List.suffix_append _ _
  have hp1 := plain_suffix hp hs
  have hb0 : BodyOk c0 [] c0 := {
    same := rfl
    names := by unfold nodeNames; rw [r2]; rfl
    tokens := rfl
    layers := by simp
    inv := r5
    undef := by
      intro i n hi
      unfold nodeNames at hi
      rw [r2] at hi
      simp at hi
    defined := by simp
    nodup := by simp
    types := by simp
    lits := fun _ => rfl }
  obtain ⟨ts2, body, -, e2, d2, hb⟩ := parseBody_read fuel t c0 c0 f1 [] c hb0 (plain_tok hp1 (by simp)).1 (.inl hk) (plain_lexed (plain_tail hp1))
    (plain_allOk (plain_tail hp1)) h
  refine ⟨head, body, ts1, t :: ts2, T, D, c0, ?_, d1, d2, ⟨t, ts2, rfl, hk⟩, hdef, r6, r7, r1, r3, r4, by simpa using hb⟩
  have : inp = ts1.map .ok ++ .ok t :: rest f1 := e1
  rw [this, e2]
  simp

end Verif.Proof.LangDef
